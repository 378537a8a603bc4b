import Verif.Lemmas.SearchNetwork
import Verif.Props.C68_Activation
import Verif.Props.C69_Softmax

/-!
C132: every network that the hyperparameter search builds takes the records of the data set and predicts a tensor of the right shape for every expected column.
-/

namespace Verif.SearchNetwork
open Verif Verif.Enums Verif.Dsl Verif.Wiring Verif.Views Verif.Layers Verif.LabelNetwork

/-! ### The calls are the usual ones -/

theorem hidden_usual (c : Config) (t : Task) (hf : cnn t = true → 0 < filters c) (k n : Nat) (s : Shape) (rate : F32) :
    ∀ o ∈ (hiddenLayers c t k n s rate).1, o.Usual := by
  have hset : ∀ v, ∀ o ∈ (layerSettings c false).map (Op.set v), o.Usual := by
    intro v o ho
    rw [List.mem_map] at ho
    obtain ⟨s, _, rfl⟩ := ho
    trivial
  have hnext : ∀ n s, (nextLayer c t n s).Usual := by
    intro n s
    unfold nextLayer
    split
    · rename_i hc
      exact ⟨rfl, hf hc⟩
    · simp [Op.Usual]
  induction k generalizing n s rate with
  | zero => intro o ho; cases ho
  | succ k ih =>
    unfold hiddenLayers
    by_cases hr : fifth rate = true
    · simp only [if_pos hr]
      intro o ho
      simp only [List.mem_append, List.mem_cons, List.not_mem_nil, or_false] at ho
      rcases ho with ((rfl | ho) | rfl) | ho
      · exact hnext _ _
      · exact hset _ o ho
      · simp [Op.Usual]
      · exact ih _ _ _ o ho
    · simp only [if_neg hr]
      intro o ho
      simp only [List.mem_append, List.mem_cons] at ho
      rcases ho with (rfl | ho) | ho
      · exact hnext _ _
      · exact hset _ o ho
      · exact ih _ _ _ o ho

theorem search_usual (c : Config) (t : Task) (hf : cnn t = true → 0 < filters c) : ∀ o ∈ searchOps c t, o.Usual := by
  intro o ho
  unfold searchOps at ho
  simp only [List.mem_append] at ho
  rcases ho with ((((ho | ho) | ho) | ho) | ho) | ho
  · revert ho
    unfold firstLayer
    split
    · rename_i g hg
      split
      · rename_i hi
        intro ho
        simp only [List.mem_singleton] at ho
        subst ho
        exact ⟨rfl, hf (by unfold cnn; rw [hg, hi]; rfl)⟩
      · intro ho
        simp only [List.mem_singleton] at ho
        subst ho
        trivial
    · intro ho
      simp only [joinedInputs, List.mem_append, List.mem_map, List.mem_singleton] at ho
      rcases ho with (⟨s, _, rfl⟩ | rfl) | rfl <;> simp [Op.Usual]
  · rw [List.mem_map] at ho
    obtain ⟨s, _, rfl⟩ := ho
    trivial
  · revert ho
    generalize over c.dropout (10 ^ 8) = b
    cases b with
    | false => intro ho; cases ho
    | true =>
      intro ho
      have : o = _ := List.mem_singleton.1 ho
      subst this
      simp [Op.Usual]
  · exact hidden_usual c t hf _ _ _ _ o ho
  · revert ho
    unfold extraLayer
    split
    · intro ho
      rw [List.mem_singleton] at ho
      subst ho
      simp [Op.Usual]
    · intro ho; cases ho
  · unfold outputLayers at ho
    rw [List.mem_flatMap] at ho
    obtain ⟨e, _, he⟩ := ho
    simp only [List.mem_cons, List.not_mem_nil, or_false] at he
    rcases he with rfl | rfl <;> simp [Op.Usual]

/-! ### Predictions -/

/-- What the numbers of a prediction can be: between 0 and 1, and for the categorical cross entropy they add up to 1. -/
def Likely (loss : LossType) (t : Tensor ℝ) : Prop :=
  (∀ r c k, r < t.rows → c < t.cols → k < t.chans → 0 < t.get r c k ∧ t.get r c k ≤ 1) ∧
    (loss = .categoricalCrossEntropy → t.rows = 1 → t.chans = 1 → 0 < t.cols → ((List.range t.cols).map fun c => t.get 0 c 0).sum = 1)

theorem likely (t : Task) (u : Tensor ℝ) : Likely t.loss (activated (lastAct t) u) := by
  unfold lastAct
  by_cases hl : t.loss = .categoricalCrossEntropy
  · rw [if_pos hl]
    show Likely _ (Activation.softmax u)
    by_cases hz : 0 < u.size
    · obtain ⟨hs, h1, h2, _⟩ := Activation.C69 u hz
      refine ⟨?_, ?_⟩
      · intro r c k hr hc hk
        exact h1 (r, c, k) (by
          unfold Calculus.places
          simp only [List.mem_flatMap, List.mem_range, List.mem_map, Prod.mk.injEq]
          exact ⟨k, by rw [← hs.2.2]; exact hk, r, by rw [← hs.1]; exact hr, c, by rw [← hs.2.1]; exact hc, rfl, rfl, rfl⟩)
      · intro _ hr hk _
        rw [← h2]
        unfold values
        rw [hr, hk]
        simp
    · have h0 : (Activation.softmax u).rows * (Activation.softmax u).cols * (Activation.softmax u).chans = 0 := by
        have : (Activation.softmax u).rows = u.rows ∧ (Activation.softmax u).cols = u.cols ∧ (Activation.softmax u).chans = u.chans := by
          unfold Activation.softmax
          split <;> exact ⟨rfl, rfl, rfl⟩
        rw [this.1, this.2.1, this.2.2]
        unfold Tensor.size at hz
        omega
      refine ⟨?_, ?_⟩
      · intro r c k hr hc hk
        have : 0 < (Activation.softmax u).rows * (Activation.softmax u).cols * (Activation.softmax u).chans := Nat.mul_pos (Nat.mul_pos (by omega) (by omega)) (by omega)
        omega
      · intro _ hr hk hc
        rw [hr, hk] at h0
        omega
  · rw [if_neg hl]
    refine ⟨?_, fun h => absurd h hl⟩
    intro r c k _ _ _
    have := (Activation.C68_range (u.get r c k)).2.1
    exact ⟨this.1, this.2.le⟩

/-- What happens to an expected column: a tensor of its shape with `Likely` numbers is predicted if it is a single row with a single channel; otherwise an exception
is thrown if outputs have a bias, and if they have none, all its numbers are predicted in a single row. -/
def Answered (loss : LossType) (bias : Bool) (r : Option (Option (Tensor ℝ))) (s : Shape) : Prop :=
  if s.rows = 1 ∧ s.chans = 1 then ∃ t, r = some (some t) ∧ HasShape t s ∧ Likely loss t
  else if bias then r = some none
  else ∃ t, r = some (some t) ∧ HasShape t ⟨1, s.rows * s.cols * s.chans, 1⟩ ∧ Likely loss t

/-- C132: for every configuration and data set that are `Suited`, whatever the weights, every record whose given tensors have the shapes of the columns is taken, and
what is predicted for the expected columns, in order, is `Answered`.
Missing: images with dropout or too small for the number of layers and rows with several channels, which are not `Suited` (see the theorems below), and expected
columns with several rows or channels. -/
theorem C132_partial (c : Config) (t : Task) (h : Suited c t) (he : total t.expected < 2 ^ 64) (p : Nat → Params) (ts : List (Tensor ℝ))
    (hts : List.Forall₂ HasShape ts t.given) :
    ∃ d rs val, run (searchOps c t) = some d ∧ predict d p ts = some rs ∧ List.Forall₂ (Answered t.loss c.bias) rs t.expected ∧ Computes d p ts val ∧
      rs = (outputsOf d).map fun v => some (val v) := by
  have hf : cnn t = true → 0 < filters c := by
    intro hc
    obtain ⟨_, _, _, h⟩ := h
    unfold cnn at hc
    rw [Bool.and_eq_true, decide_eq_true_eq] at hc
    obtain ⟨g, hg⟩ := List.length_eq_one_iff.1 hc.1
    rw [hg, hc.2] at h
    exact h.2.1
  obtain ⟨d, z, hrun, ⟨hline, hfit, y, hy, hys, hyf⟩, htk⟩ := search_run c t h
  have hs := run_sound _ (search_usual c t hf) _ hrun
  obtain ⟨x, hx, val, hv, hpred, hrs⟩ := ended_predict hline (t.expected.map (outputV c t z)) (by
    intro x hx
    rw [List.mem_map] at hx
    obtain ⟨s, _, rfl⟩ := hx
    rfl) (by
    intro x hx
    rw [List.mem_map] at hx
    obtain ⟨s, _, rfl⟩ := hx
    rfl) hs hfit y hy hyf p ts hts
  refine ⟨_, _, val, hrun, hpred, ?_, hv, rfl⟩
  rw [hrs, List.length_map, List.forall₂_iff_get]
  refine ⟨by simp, ?_⟩
  intro i hi1 hi2
  have hi : i < t.expected.length := hi2
  simp only [List.get_eq_getElem, List.getElem_map, List.getElem_range]
  rw [List.getD_eq_getElem?_getD, List.getElem?_map, List.getElem?_eq_getElem hi, Option.map_some, Option.getD_some]
  rw [hys] at hx
  have ho := output_vertex (p (d.length + 1 + i)) (outputV c t z t.expected[i]) z rfl rfl rfl htk.1 htk.2 x hx
  have hlt := lt_of_le_of_lt (le_total t.expected t.expected[i] (List.getElem_mem hi)) he
  generalize t.expected[i] = s at *
  have hwr : wrapped s = s.rows * s.cols * s.chans := wrapped_small s hlt
  rw [show (outputV c t z s).bias = c.bias from rfl, show (outputV c t z s).outShape = s from rfl, hwr] at ho
  unfold Answered
  by_cases hsh : s.rows = 1 ∧ s.chans = 1
  · have hse : s = ⟨1, s.rows * s.cols * s.chans, 1⟩ := by
      obtain ⟨r, k, m⟩ := s
      simp only at hsh
      rw [hsh.1, hsh.2]
      simp
    rw [if_pos hsh]
    rw [if_neg (by rintro ⟨_, hne⟩; exact hne hse)] at ho
    obtain ⟨w, u, hw1, hwu, hw2⟩ := ho
    rw [← hse] at hw2
    exact ⟨w, by rw [hw1], hw2, hwu ▸ likely t u⟩
  · have hse : ¬ s = ⟨1, s.rows * s.cols * s.chans, 1⟩ := by
      intro hse
      apply hsh
      exact ⟨by rw [hse], by rw [hse]⟩
    rw [if_neg hsh]
    by_cases hb : c.bias = true
    · rw [if_pos ⟨hb, hse⟩] at ho
      rw [if_pos hb, ho]
    · rw [if_neg (by rintro ⟨h, _⟩; exact hb h)] at ho
      rw [if_neg hb]
      obtain ⟨w, u, hw1, hwu, hw2⟩ := ho
      exact ⟨w, by rw [hw1], hw2, hwu ▸ likely t u⟩

/-- Every configuration of the search space has at least one filter. -/
theorem C132_filters (c : Config) (h : InSpace c) : 0 < filters c := by
  have : ∀ w ∈ widths, 0 < sizeOf w := by decide +kernel
  exact this c.width h.2.1

theorem hidden_rate (c c' : Config) (t : Task) (hw : c'.width = c.width) (hs : layerSettings c' false = layerSettings c false) (r r' : F32) (hr : fifth r = false)
    (hr' : fifth r' = false) (k n : Nat) (s : Shape) : hiddenLayers c' t k n s r' = hiddenLayers c t k n s r := by
  have hf : filters c' = filters c := by unfold filters; rw [hw]
  have hwd : wide c' t = wide c t := by unfold wide scaled; rw [hw]
  induction k generalizing n s with
  | zero => rfl
  | succ k ih =>
    unfold hiddenLayers
    simp only [hr, hr', hs, Bool.false_eq_true, if_false]
    have h1 : nextShape c' t s = nextShape c t s := by unfold nextShape; rw [hf, hwd]
    have h2 : nextLayer c' t n s = nextLayer c t n s := by unfold nextLayer; rw [hf, hwd]
    rw [h1, h2, ih]

attribute [local irreducible] over fifth

theorem same_calls (c : Config) (t : Task) (rate : F32) (b : Bool) (h1 : over c.dropout (10 ^ 8) = b) (h2 : over rate (10 ^ 8) = b) (h3 : b = true)
    (h4 : fifth (c.dropout * fifthF) = false) (h5 : fifth (rate * fifthF) = false) : searchOps { c with dropout := rate } t = searchOps c t := by
  have hfirst : firstLayer { c with dropout := rate } t = firstLayer c t := rfl
  have hset : ∀ b, layerSettings { c with dropout := rate } b = layerSettings c b := fun _ => rfl
  have hex : ∀ n s, extraLayer { c with dropout := rate } t n s = extraLayer c t n s := fun _ _ => rfl
  have hout : ∀ n s, outputLayers { c with dropout := rate } t n s = outputLayers c t n s := fun _ _ => rfl
  unfold searchOps
  dsimp only
  rw [hfirst, hset, h1, h2]
  subst h3
  generalize firstLayer c t = a
  have hh : ∀ n s, hiddenLayers { c with dropout := rate } t c.depth n s (rate * fifthF) = hiddenLayers c t c.depth n s (c.dropout * fifthF) :=
    fun n s => hidden_rate c { c with dropout := rate } t rfl rfl _ _ h4 h5 _ _ _
  unfold firstDropout
  rw [if_pos rfl, if_pos rfl]
  dsimp only
  rw [hh, hex, hout]

attribute [local semireducible] over fifth

theorem rates_small : ∀ f ∈ dropouts, f ≠ ⟨0#32⟩ → over f (10 ^ 8) = true ∧ fifth (f * fifthF) = false := by decide +kernel

/-- The claim that every value of the search space makes a difference fails for the dropout rate: all positive rates of the space describe the same network, with
one dropout layer (whose rate is not set). -/
theorem C132_rates_violated (c : Config) (t : Task) (rate : F32) (h1 : c.dropout ∈ dropouts) (h2 : rate ∈ dropouts) (hp1 : c.dropout ≠ ⟨0#32⟩)
    (hp2 : rate ≠ ⟨0#32⟩) : searchOps { c with dropout := rate } t = searchOps c t :=
  same_calls c t rate true (rates_small _ h1 hp1).1 (rates_small _ h2 hp2).1 rfl (rates_small _ h1 hp1).2 (rates_small _ h2 hp2).2

/-! ### Where it fails -/

/-- A configuration of the space: one hidden layer, width 1, and the given dropout rate. -/
def small (depth : Nat) (dropout : BitVec 32) : Config := ⟨depth, ⟨0x3F800000#32⟩, ⟨dropout⟩, ⟨0#32⟩, false, true, false, false, 32⟩

/-- Images of 28x28 pixels in ten classes. -/
def digits : Task := ⟨[⟨28, 28, 1⟩], [⟨1, 10, 1⟩], true, .categoricalCrossEntropy⟩

/-- C132 fails for images with dropout: the dropout layer behind the first convolution flattens its input, the next convolution gets a single row, and every prediction
throws an exception. -/
theorem C132_image_violated :
    InSpace (small 1 0x3F000000#32) ∧ ∃ d, run (searchOps (small 1 0x3F000000#32) digits) = some d ∧
      ∀ p x, HasShape x ⟨28, 28, 1⟩ → predict d p [x] = some [some none] := by
  refine ⟨by unfold InSpace; decide +kernel, ?_⟩
  let d : Dsl :=
    [(⟨true, false, .convolution2dValid, .relu, true, false, 32, [⟨28, 28, 1⟩], ⟨26, 26, 1⟩, 1, 3, false, false, false, five, 0#32, twoPercent⟩, []),
        (⟨false, false, .dropout, .linear, false, false, 32, [⟨26, 26, 1⟩], ⟨26, 26, 1⟩, 0, 0, false, false, false, five, 0#32, twoPercent⟩, [1]),
        (⟨false, false, .convolution2dValid, .relu, true, false, 32, [⟨26, 26, 1⟩], ⟨24, 24, 1⟩, 1, 3, false, false, false, five, 0#32, twoPercent⟩, [2]),
        (⟨false, false, .full, .sigmoid, false, false, 32, [⟨24, 24, 1⟩], ⟨1, 10, 1⟩, 0, 0, true, false, false, five, 0#32, twoPercent⟩, [3]),
        (⟨false, true, .full, .softmax, false, true, 32, [⟨1, 10, 1⟩], ⟨1, 10, 1⟩, 0, 0, true, false, false, five, 0#32, twoPercent⟩, [4])]
  have hrun : run (searchOps (small 1 0x3F000000#32) digits) = some d := by
    decide +kernel
  refine ⟨d, hrun, ?_⟩
  intro p x hx
  obtain ⟨h1, h2, h3⟩ := hx
  have hw : wires d = some ⟨[1, 2, 3, 4, 5], [(4, 5), (3, 4), (2, 3), (1, 2)], [5]⟩ := rfl
  have hh : heads d = [1] := rfl
  unfold Wiring.predict
  rw [hw, hh]
  obtain ⟨y, l1, a1, a2, a3⟩ : ∃ y, vertexLayer d p 1 [some x] = some y ∧ HasShape y ⟨26, 26, 1⟩ := by
    refine ⟨Activation.activate .relu (sumToChannel (validCorrelation (channelTo x 0) (channelTo ⟨3, 3, 1, (p 1).kernel 0⟩ 0)) 0 1), rfl, ?_⟩
    simp [HasShape, Activation.activate, map, sumToChannel, validCorrelation, channelTo, h1, h2]
  obtain ⟨z, l2, b1, b2, b3⟩ : ∃ z, vertexLayer d p 2 [some y] = some z ∧ HasShape z ⟨1, 676, 1⟩ := by
    refine ⟨map (fun v => v * (p 2).scale) (flattenForward y), rfl, ?_⟩
    simp [map, flattenForward, rowFlatten, Tensor.size, HasShape, a1, a2, a3]
  obtain ⟨u, l3, c1, c2, c3⟩ : ∃ u, vertexLayer d p 3 [some z] = some u ∧ HasShape u ⟨2 ^ 64 - 1, 674, 1⟩ := by
    refine ⟨Activation.activate .relu (sumToChannel (validCorrelation (channelTo z 0) (channelTo ⟨3, 3, 1, (p 3).kernel 0⟩ 0)) 0 1), rfl, ?_⟩
    simp [HasShape, Activation.activate, map, sumToChannel, validCorrelation, channelTo, b1, b2]
  have l4 : vertexLayer d p 4 [some u] = none := by
    have hm : matmul (flattenForward u) ⟨wrapped ⟨24, 24, 1⟩, wrapped ⟨1, 10, 1⟩, 1, fun r c _ => (p 4).weight r c⟩ = none := by
      unfold matmul
      rw [if_pos]
      have hc : (flattenForward u).cols = (2 ^ 64 - 1) * 674 := by
        simp only [flattenForward, rowFlatten, Tensor.size]
        rw [if_neg (by rw [c1]; decide), c1, c2, c3]
        rfl
      rw [hc]
      show (2 ^ 64 - 1) * 674 ≠ wrapped ⟨24, 24, 1⟩
      decide
    have hf : Part.forward (.full ⟨⟨wrapped ⟨24, 24, 1⟩, wrapped ⟨1, 10, 1⟩, 1, fun r c _ => (p 4).weight r c⟩, 0, none, [], []⟩) [flattenForward u] = none := by
      show ((matmul (flattenForward u) _).map _).map _ = _
      rw [hm]; rfl
    show chain [.flatten, .full ⟨⟨wrapped ⟨24, 24, 1⟩, wrapped ⟨1, 10, 1⟩, 1, fun r c _ => (p 4).weight r c⟩, 0, none, [], []⟩, .activation .sigmoid] [u] = none
    simp only [chain, Part.forward, Option.bind_some] at hf ⊢
    rw [hf]
    rfl
  have l5 : vertexLayer d p 5 [none] = none := rfl
  have o1 : Graph.outputs [(4, 5), (3, 4), (2, 3), (1, 2)] 1 = [3] := rfl
  have o2 : Graph.outputs [(4, 5), (3, 4), (2, 3), (1, 2)] 2 = [2] := rfl
  have o3 : Graph.outputs [(4, 5), (3, 4), (2, 3), (1, 2)] 3 = [1] := rfl
  have o4 : Graph.outputs [(4, 5), (3, 4), (2, 3), (1, 2)] 4 = [0] := rfl
  have o5 : Graph.outputs [(4, 5), (3, 4), (2, 3), (1, 2)] 5 = [] := rfl
  have i2 : Graph.inputs [(4, 5), (3, 4), (2, 3), (1, 2)] 2 = [3] := rfl
  have i3 : Graph.inputs [(4, 5), (3, 4), (2, 3), (1, 2)] 3 = [2] := rfl
  have i4 : Graph.inputs [(4, 5), (3, 4), (2, 3), (1, 2)] 4 = [1] := rfl
  have i5 : Graph.inputs [(4, 5), (3, 4), (2, 3), (1, 2)] 5 = [0] := rfl
  have e0 : Graph.dst [(4, 5), (3, 4), (2, 3), (1, 2)] 0 = 5 := rfl
  have e1 : Graph.dst [(4, 5), (3, 4), (2, 3), (1, 2)] 1 = 4 := rfl
  have e2 : Graph.dst [(4, 5), (3, 4), (2, 3), (1, 2)] 2 = 3 := rfl
  have e3 : Graph.dst [(4, 5), (3, 4), (2, 3), (1, 2)] 3 = 2 := rfl
  simp [Graph.predict, Graph.forwardAll, Graph.doForward, Graph.sendAll, Graph.send, Graph.ready, Graph.clear, l1, l2, l3, l4, l5, o1, o2, o3, o4, o5, i2, i3, i4, i5,
    e0, e1, e2, e3, show List.length d = 4 + 1 from rfl]

/-- C132 fails for images that are too small for the number of hidden layers: with 28x28 pixels, 20 hidden layers and no dropout, which is in the space, the last of
the convolutions is declared to have 2^64 - 14 rows. -/
theorem C132_depth_violated :
    InSpace (small 20 0#32) ∧ ∃ d, run (searchOps (small 20 0#32) digits) = some d ∧
      (vertexAt d 21).map (fun x => (x.1.kind, x.1.outShape)) = some (.convolution2dValid, ⟨2 ^ 64 - 14, 2 ^ 64 - 14, 1⟩) := by
  refine ⟨by unfold InSpace; decide +kernel, ?_⟩
  have : (run (searchOps (small 20 0#32) digits)).isSome = true ∧ ((run (searchOps (small 20 0#32) digits)).bind fun d =>
      (vertexAt d 21).map (fun x => (x.1.kind, x.1.outShape))) = some (.convolution2dValid, ⟨2 ^ 64 - 14, 2 ^ 64 - 14, 1⟩) := by decide +kernel
  revert this
  generalize run (searchOps (small 20 0#32) digits) = o
  cases o with
  | none => rintro ⟨h, _⟩; cases h
  | some d => rintro ⟨_, h⟩; exact ⟨d, rfl, h⟩

/-- One row of two pixels with three channels, and one number to predict. -/
def colors : Task := ⟨[⟨1, 2, 3⟩], [⟨1, 1, 1⟩], false, .mse⟩

/-- C132 fails for a given column with a single row and several channels: every prediction throws an exception. -/
theorem C132_channels_violated :
    InSpace (small 1 0#32) ∧ ∃ d, run (searchOps (small 1 0#32) colors) = some d ∧ ∀ p x, HasShape x ⟨1, 2, 3⟩ → predict d p [x] = some [some none] := by
  refine ⟨by unfold InSpace; decide +kernel, ?_⟩
  let d : Dsl :=
    [(⟨true, false, .full, .relu, false, false, 32, [⟨1, 2, 3⟩], ⟨1, 6, 1⟩, 0, 0, false, false, false, five, 0#32, twoPercent⟩, []),
        (⟨false, false, .full, .relu, false, false, 32, [⟨1, 6, 1⟩], ⟨1, 6, 1⟩, 0, 0, false, false, false, five, 0#32, twoPercent⟩, [1]),
        (⟨false, true, .full, .sigmoid, false, true, 32, [⟨1, 6, 1⟩], ⟨1, 1, 1⟩, 0, 0, true, false, false, five, 0#32, twoPercent⟩, [2])]
  have hrun : run (searchOps (small 1 0#32) colors) = some d := by
    decide +kernel
  refine ⟨d, hrun, ?_⟩
  intro p x hx
  obtain ⟨h1, h2, h3⟩ := hx
  have hw : wires d = some ⟨[1, 2, 3], [(2, 3), (1, 2)], [3]⟩ := rfl
  have hh : heads d = [1] := rfl
  unfold Wiring.predict
  rw [hw, hh]
  have l1 : vertexLayer d p 1 [some x] = none := by
    have hm : matmul x ⟨wrapped ⟨1, 2, 3⟩, wrapped ⟨1, 6, 1⟩, 1, fun r c _ => (p 1).weight r c⟩ = none := by
      unfold matmul
      rw [if_pos]
      rw [h2]
      show 2 ≠ wrapped ⟨1, 2, 3⟩
      decide
    have hf : Part.forward (.full ⟨⟨wrapped ⟨1, 2, 3⟩, wrapped ⟨1, 6, 1⟩, 1, fun r c _ => (p 1).weight r c⟩, 0, none, [], []⟩) [x] = none := by
      show ((matmul x _).map _).map _ = _
      rw [hm]; rfl
    show chain [.full ⟨⟨wrapped ⟨1, 2, 3⟩, wrapped ⟨1, 6, 1⟩, 1, fun r c _ => (p 1).weight r c⟩, 0, none, [], []⟩, .activation .relu] [x] = none
    simp only [chain]
    rw [hf]
    rfl
  have l2 : vertexLayer d p 2 [none] = none := rfl
  have l3 : vertexLayer d p 3 [none] = none := rfl
  have o1 : Graph.outputs [(2, 3), (1, 2)] 1 = [1] := rfl
  have o2 : Graph.outputs [(2, 3), (1, 2)] 2 = [0] := rfl
  have o3 : Graph.outputs [(2, 3), (1, 2)] 3 = [] := rfl
  have i2 : Graph.inputs [(2, 3), (1, 2)] 2 = [1] := rfl
  have i3 : Graph.inputs [(2, 3), (1, 2)] 3 = [0] := rfl
  have e0 : Graph.dst [(2, 3), (1, 2)] 0 = 3 := rfl
  have e1 : Graph.dst [(2, 3), (1, 2)] 1 = 2 := rfl
  simp [Graph.predict, Graph.forwardAll, Graph.doForward, Graph.sendAll, Graph.send, Graph.ready, Graph.clear, l1, l2, l3, o1, o2, o3, i2, i3, e0, e1,
    show List.length d = 2 + 1 from rfl]

/-- Configurations of the space and data sets that are `Suited`: four numbers and three classes with dropout, two given columns (one of them an image), and images
without dropout. -/
example : (InSpace (small 3 0x3F4CCCCD#32) ∧ Suited (small 3 0x3F4CCCCD#32) ⟨[⟨1, 4, 1⟩], [⟨1, 3, 1⟩], false, .categoricalCrossEntropy⟩) ∧
    Suited (small 30 0x3F000000#32) ⟨[⟨1, 4, 1⟩, ⟨8, 8, 3⟩], [⟨1, 1, 1⟩, ⟨2, 3, 1⟩], true, .mse⟩ ∧
    (InSpace (small 10 0#32) ∧ Suited (small 10 0#32) digits) := by
  refine ⟨⟨by unfold InSpace; decide +kernel, ?_⟩, ?_, ⟨by unfold InSpace; decide +kernel, ?_⟩⟩
  · refine ⟨by decide +kernel, by decide +kernel, by decide +kernel, ?_⟩
    exact Or.inr ⟨rfl, rfl⟩
  · refine ⟨by decide +kernel, by decide +kernel, by decide +kernel, ?_⟩
    show ∀ s ∈ [(⟨1, 4, 1⟩ : Shape), ⟨8, 8, 3⟩], s.rows = 1 → s.chans = 1
    decide
  · refine ⟨by decide +kernel, by decide +kernel, by decide +kernel, ?_⟩
    show over (small 10 0#32).dropout (10 ^ 8) = false ∧ 0 < filters (small 10 0#32) ∧ 0 < 1 ∧ Large (filters (small 10 0#32)) 11 ⟨28, 28, 1⟩
    unfold Large
    decide +kernel

end Verif.SearchNetwork
