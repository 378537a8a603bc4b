import Verif.Model.SearchNetwork
import Verif.Lemmas.Line

/-! The networks of the hyperparameter search: their vertices. -/

namespace Verif.SearchNetwork
open Verif Verif.Enums Verif.Dsl Verif.Wiring Verif.Views Verif.Layers Verif.LabelNetwork

/-! ### Settings -/

theorem setAll_weighted (l : List Setting) (x : Vertex) (h : x.weighted = true) : ∃ y, x.setAll l = some y ∧ SameCore y x := by
  induction l generalizing x with
  | nil => exact ⟨x, rfl, by simp [SameCore]⟩
  | cons s l ih =>
    have hs : ∃ y, x.set s = some y := by
      cases s <;> simp [Vertex.set, h]
    obtain ⟨y, hy⟩ := hs
    obtain ⟨hc, _⟩ := set_core x y s hy (by intro hw; rw [h] at hw; cases hw)
    have hw : y.weighted = true := by
      unfold Vertex.weighted at h ⊢
      rw [hc.2.2.1]
      exact h
    obtain ⟨z, hz, hc'⟩ := ih y hw
    refine ⟨z, ?_, ?_⟩
    · unfold Vertex.setAll at hz ⊢
      rw [List.foldlM_cons, hy]
      exact hz
    · unfold SameCore at hc hc' ⊢
      simp only [hc'.1, hc'.2.1, hc'.2.2.1, hc'.2.2.2.1, hc'.2.2.2.2.1, hc'.2.2.2.2.2.1, hc'.2.2.2.2.2.2.1, hc'.2.2.2.2.2.2.2]
      exact hc

/-! ### The chain of layers -/

/-- A shape that a full layer can work with. -/
def Takes (s : Shape) : Prop := (1 < s.rows ∨ (s.rows = 1 ∧ s.chans = 1)) ∧ s.rows * s.cols * s.chans < 2 ^ 64

/-- A chain whose shapes fit together and that ends with a layer of the given shape. -/
def Good (given : List Shape) (d : Dsl) (s : Shape) : Prop :=
  Line given d ∧ LocalFits d ∧ ∃ y, vertexAt d d.length = some y ∧ y.1.outShape = s ∧ ¬ flattens y.1

theorem Good.grow {given : List Shape} {d : Dsl} {s : Shape} (h : Good given d s) (x : Vertex) (ha : x.accepts = false) (ho : x.output = false)
    (hi : x.inShapes = [s]) (hx : FitsVertex x) (hf : ¬ flattens x) : Good given (d ++ [(x, [d.length])]) x.outShape := by
  obtain ⟨h1, h2, y, hy, hys, hyf⟩ := h
  refine ⟨h1.grow x ha ho, h2.layer x _ y hy hx (by rw [hi, hys]) (fun h => absurd h hyf), (x, [d.length]), vertexAt_last _ _ _ (by simp), rfl, hf⟩

/-- A layer with settings at the end. -/
theorem Good.layer {given : List Shape} {d : Dsl} {s : Shape} (h : Good given d s) (w : Nat) (hw : w < 2 ^ 64) (hs : Takes s) (a : ActivationType) (l : List Setting) :
    ∃ x, steps d (.layer d.length s ⟨1, w, 1⟩ .full a false :: l.map (.set (d.length + 1))) = some (d ++ [(x, [d.length])]) ∧
      Good given (d ++ [(x, [d.length])]) ⟨1, w, 1⟩ := by
  obtain ⟨x, hx, c1, c2, c3, _, c5, c6, _⟩ := setAll_weighted l (plainV .full s ⟨1, w, 1⟩ false false a) rfl
  refine ⟨x, ?_, ?_⟩
  · obtain ⟨_, _, y, hy, _⟩ := h
    rw [show (Op.layer d.length s ⟨1, w, 1⟩ .full a false :: l.map (Op.set (d.length + 1))) =
      [Op.layer d.length s ⟨1, w, 1⟩ .full a false] ++ l.map (Op.set (d.length + 1)) from rfl,
      steps_append _ _ _ _ (steps_layer d _ y hy _ _ _ _ _ (by intro h; cases h))]
    exact steps_set d _ _ _ _ rfl l hx
  · have := h.grow x c1 c2 c5 (fits_full x w s c3 c6 c5 hw hs.1 hs.2) (by
      intro hf
      have := hf.1
      rw [c3] at this
      cases this)
    rw [c6] at this
    exact this

/-- A dropout layer on a single row. -/
theorem Good.drop {given : List Shape} {d : Dsl} {s : Shape} (h : Good given d s) (hs : s.rows = 1) :
    steps d [.layer d.length s s .dropout .linear false] = some (d ++ [(dropV s, [d.length])]) ∧ Good given (d ++ [(dropV s, [d.length])]) s := by
  constructor
  · obtain ⟨_, _, y, hy, _⟩ := h
    exact steps_layer d _ y hy _ _ _ _ _ (by intro h; cases h)
  · refine h.grow (dropV s) rfl rfl rfl ?_ ?_
    · show ∀ i ∈ [s], s = i
      intro i hi
      rw [List.mem_singleton] at hi
      exact hi.symm
    · intro hf
      have h1 : 1 < s.rows := hf.2
      omega

theorem takes_row (w : Nat) (h : w < 2 ^ 64) : Takes ⟨1, w, 1⟩ := by
  refine ⟨Or.inr ⟨rfl, rfl⟩, ?_⟩
  show 1 * w * 1 < 2 ^ 64
  rw [Nat.one_mul, Nat.mul_one]
  exact h

/-- The loop over the hidden layers, for full layers. -/
theorem hidden_dense (c : Config) (t : Task) (hc : cnn t = false) (hw : wide c t < 2 ^ 64) (k : Nat) (d : Dsl) (s : Shape) (rate : F32)
    (h : Good t.given d s) (hs : Takes s) :
    ∃ d', steps d (hiddenLayers c t k d.length s rate).1 = some d' ∧ (hiddenLayers c t k d.length s rate).2.1 = d'.length ∧
      Good t.given d' (hiddenLayers c t k d.length s rate).2.2 ∧ Takes (hiddenLayers c t k d.length s rate).2.2 := by
  induction k generalizing d s rate with
  | zero => exact ⟨d, rfl, rfl, h, hs⟩
  | succ k ih =>
    have hn : nextShape c t s = ⟨1, wide c t, 1⟩ := by unfold nextShape; rw [hc]; rfl
    have hl : nextLayer c t d.length s = .layer d.length s ⟨1, wide c t, 1⟩ .full .relu false := by unfold nextLayer; rw [hc]; rfl
    obtain ⟨x, hx, hg⟩ := h.layer (wide c t) hw hs .relu (layerSettings c false)
    have hlen : (d ++ [(x, [d.length])]).length = d.length + 1 := by simp
    unfold hiddenLayers
    rw [hn, hl]
    by_cases hr : fifth rate = true
    · obtain ⟨hdrop, hg'⟩ := hg.drop rfl
      have hlen' : (d ++ [(x, [d.length])] ++ [(dropV ⟨1, wide c t, 1⟩, [(d ++ [(x, [d.length])]).length])]).length = d.length + 2 := by simp
      obtain ⟨d', e1, e2, e3, e4⟩ := ih _ ⟨1, wide c t, 1⟩ (rate * fifthF) hg' (takes_row _ hw)
      rw [hlen'] at e1 e2 e3 e4
      simp only [if_pos hr]
      refine ⟨d', ?_, e2, e3, e4⟩
      rw [List.append_assoc, steps_append _ _ _ _ hx, steps_append _ _ _ _ (by rw [← hlen]; exact hdrop)]
      exact e1
    · obtain ⟨d', e1, e2, e3, e4⟩ := ih _ ⟨1, wide c t, 1⟩ rate hg (takes_row _ hw)
      rw [hlen] at e1 e2 e3 e4
      simp only [if_neg hr]
      refine ⟨d', ?_, e2, e3, e4⟩
      rw [steps_append _ _ _ _ hx]
      exact e1

/-! ### Images -/

/-- An image that is large enough for `k` convolutions with `f` filters and a full layer behind them. -/
def Large (f k : Nat) (s : Shape) : Prop :=
  2 * k + 1 ≤ s.rows ∧ 2 * k + 1 ≤ s.cols ∧ 0 < s.chans ∧ s.rows < 2 ^ 64 ∧ s.cols < 2 ^ 64 ∧ s.rows * s.cols * f < 2 ^ 64 ∧ (2 * k + 1 < s.rows ∨ f = 1)

theorem convolved_eq (s : Shape) (f : Nat) (h1 : 3 ≤ s.rows) (h2 : 3 ≤ s.cols) (h3 : s.rows < 2 ^ 64) (h4 : s.cols < 2 ^ 64) :
    convolved s f = ⟨s.rows - 2, s.cols - 2, f⟩ := by
  unfold convolved
  rw [wrap_conv _ h3 h1, wrap_conv _ h4 h2]

theorem large_next (f k : Nat) (s : Shape) (hf : 0 < f) (h : Large f (k + 1) s) : Large f k (convolved s f) := by
  obtain ⟨h1, h2, h3, h4, h5, h6, h7⟩ := h
  rw [convolved_eq s f (by omega) (by omega) h4 h5]
  refine ⟨by show 2 * k + 1 ≤ s.rows - 2; omega, by show 2 * k + 1 ≤ s.cols - 2; omega, hf, ?_, ?_, ?_, ?_⟩
  · exact lt_of_le_of_lt (Nat.sub_le _ _) h4
  · exact lt_of_le_of_lt (Nat.sub_le _ _) h5
  · refine lt_of_le_of_lt ?_ h6
    exact Nat.mul_le_mul_right _ (Nat.mul_le_mul (Nat.sub_le _ _) (Nat.sub_le _ _))
  · rcases h7 with h | h
    · left
      show 2 * k + 1 < s.rows - 2
      omega
    · exact Or.inr h

/-- A convolution with settings at the end. -/
theorem Good.convolution {given : List Shape} {d : Dsl} {s : Shape} (h : Good given d s) (f : Nat) (hf : 0 < f) (hr : 3 ≤ s.rows) (hc : 3 ≤ s.cols) (hk : 0 < s.chans)
    (h3 : s.rows < 2 ^ 64) (l : List Setting) :
    ∃ x, steps d (.layerFilters d.length f 3 .convolution2dValid .relu false :: l.map (.set (d.length + 1))) = some (d ++ [(x, [d.length])]) ∧
      Good given (d ++ [(x, [d.length])]) (convolved s f) := by
  obtain ⟨x, hx, c1, c2, c3, _, c5, c6, c7, c8⟩ := setAll_weighted l
    ⟨false, false, .convolution2dValid, .relu, true, false, 32, [s], convolved s f, f, 3, false, false, false, five, 0#32, twoPercent⟩ rfl
  refine ⟨x, ?_, ?_⟩
  · obtain ⟨_, _, y, hy, hys, _⟩ := h
    have h1 : steps d [.layerFilters d.length f 3 .convolution2dValid .relu false] = some (d ++ [(⟨false, false, .convolution2dValid, .relu, true, false, 32, [s],
        convolved s f, f, 3, false, false, false, five, 0#32, twoPercent⟩, [d.length])]) := by
      unfold steps
      rw [List.foldlM_cons]
      show ((vertexAt d d.length).bind fun x => (filtered .convolution2dValid x.1.outShape f 3 false false .relu).map fun v => d ++ [(v, [d.length])]).bind _ = _
      rw [hy, Option.bind_some, hys]
      rfl
    rw [show (Op.layerFilters d.length f 3 .convolution2dValid .relu false :: l.map (Op.set (d.length + 1))) =
      [Op.layerFilters d.length f 3 .convolution2dValid .relu false] ++ l.map (Op.set (d.length + 1)) from rfl, steps_append _ _ _ _ h1]
    exact steps_set d _ _ _ _ rfl l hx
  · have := h.grow x c1 c2 c5 (by
      unfold FitsVertex
      rw [c3, c5, c7, c8]
      refine ⟨hf, ?_⟩
      intro i hi
      have hi' : i ∈ [s] := hi
      rw [List.mem_singleton] at hi'
      subst hi'
      exact ⟨hk, hr, hc, h3⟩) (by
      intro hf
      have := hf.1
      rw [c3] at this
      cases this)
    rw [c6] at this
    exact this

/-- The loop over the hidden layers, for convolutions. -/
theorem hidden_cnn (c : Config) (t : Task) (hc : cnn t = true) (hf : 0 < filters c) (rate : F32) (hr : fifth rate = false) (k : Nat) (d : Dsl) (s : Shape)
    (h : Good t.given d s) (hs : Large (filters c) k s) (hsf : s.chans = filters c) :
    ∃ d', steps d (hiddenLayers c t k d.length s rate).1 = some d' ∧ (hiddenLayers c t k d.length s rate).2.1 = d'.length ∧
      Good t.given d' (hiddenLayers c t k d.length s rate).2.2 ∧ Takes (hiddenLayers c t k d.length s rate).2.2 := by
  induction k generalizing d s with
  | zero =>
    refine ⟨d, rfl, rfl, h, ?_⟩
    obtain ⟨h1, h2, h3, h4, h5, h6, h7⟩ := hs
    refine ⟨?_, by rw [← hsf] at h6; exact h6⟩
    show 1 < s.rows ∨ (s.rows = 1 ∧ s.chans = 1)
    rw [hsf]
    omega
  | succ k ih =>
    have hn : nextShape c t s = convolved s (filters c) := by unfold nextShape; rw [hc]; rfl
    have hl : nextLayer c t d.length s = .layerFilters d.length (filters c) 3 .convolution2dValid .relu false := by unfold nextLayer; rw [hc]; rfl
    have hs' := hs
    obtain ⟨h1, h2, h3, h4, h5, h6, h7⟩ := hs'
    obtain ⟨x, hx, hg⟩ := h.convolution (filters c) hf (by omega) (by omega) h3 h4 (layerSettings c false)
    have hlen : (d ++ [(x, [d.length])]).length = d.length + 1 := by simp
    unfold hiddenLayers
    rw [hn, hl]
    obtain ⟨d', e1, e2, e3, e4⟩ := ih _ (convolved s (filters c)) hg (large_next _ _ _ hf hs) rfl
    rw [hlen] at e1 e2 e3 e4
    simp only [hr]
    refine ⟨d', ?_, e2, e3, e4⟩
    show steps d (_ ++ _) = _
    rw [steps_append _ _ _ _ hx]
    exact e1

attribute [local irreducible] wide filters wideExpected over fifth scaled sizeOf floatOf

/-! ### The first hidden layer -/

/-- The data sets and configurations for which the networks are fine: the sizes of the columns and layers are below 2^64; a single column that is no image has
several rows or a single channel; each of several columns with a single row has a single channel; a single image is large enough for all the convolutions, there
is at least one filter, and there is no dropout. -/
def Suited (c : Config) (t : Task) : Prop :=
  total t.given < 2 ^ 64 ∧ wide c t < 2 ^ 64 ∧ wideExpected c t < 2 ^ 64 ∧
    match t.given with
    | [] => False
    | [g] => if t.image then over c.dropout (10 ^ 8) = false ∧ 0 < filters c ∧ 0 < g.chans ∧ Large (filters c) (c.depth + 1) g else 1 < g.rows ∨ (g.rows = 1 ∧ g.chans = 1)
    | l => ∀ s ∈ l, s.rows = 1 → s.chans = 1

theorem single_line (g : Shape) (x : Vertex) (ha : x.accepts = true) (ho : x.output = false) (hi : x.inShapes = [g]) : Line [g] [(x, [])] := by
  refine ⟨by simp, by simp [start], ?_, ?_, by simp, ?_, ?_⟩
  · intro v h1 h2
    simp [start] at h1 h2
    omega
  · intro i h
    have : i = 0 := by simpa using h
    subst this
    exact ⟨(x, []), rfl, hi, ha, rfl⟩
  · intro v y h1 h2
    have := (vertexAt_range _ _ _ h2).2
    simp at h1 this
    omega
  · intro e he
    rw [List.mem_singleton] at he
    subst he
    exact ho

/-- The flattened inputs and their concatenation. -/
def joinedVs (l : List Shape) : Dsl :=
  l.map (fun s => (flatV s, [])) ++ [(concatenation (l.map fun s => ⟨1, wrap (s.rows * s.cols * s.chans), 1⟩), List.range' 1 l.length)]

theorem joined_steps (l : List Shape) : steps [] (joinedInputs l) = some (joinedVs l) := by
  unfold joinedInputs joinedVs
  rw [steps_append _ _ _ _ (inputs_steps l [])]
  have := outShapes_flat l [] []
  rw [List.append_nil, List.length_nil, Nat.zero_add] at this
  unfold steps
  rw [List.foldlM_cons]
  show ((outShapes _ _).map _).bind _ = _
  rw [List.nil_append] at this ⊢
  rw [this]
  rfl

theorem joined_good (l : List Shape) (h2 : 2 ≤ l.length) (ht : total l < 2 ^ 64) (h : ∀ s ∈ l, s.rows = 1 → s.chans = 1) :
    Good l (joinedVs l) (joinedShape l) ∧ Takes (joinedShape l) := by
  have hin := inputs_fit l [] (by intro e he; cases he) ht h
  rw [List.nil_append] at hin
  have hos := outShapes_flat l [] []
  rw [List.append_nil, List.nil_append, List.length_nil, Nat.zero_add] at hos
  have hjs : joinedShape l = ⟨1, total l, 1⟩ := by
    unfold joinedShape
    rw [sum_wrapped _ ht, wrap_of_lt _ ht]
  have hconc : (concatenation (l.map fun s => (⟨1, wrap (s.rows * s.cols * s.chans), 1⟩ : Shape))).outShape = joinedShape l := by
    unfold concatenation joinedShape
    simp only [List.map_map]
    rfl
  have hlen : (joinedVs l).length = l.length + 1 := by unfold joinedVs; simp
  have hst : start l = l.length + 1 := by unfold start; rw [if_neg (by omega)]
  have hcat : LocalFits (joinedVs l) := by
    refine hin.grow _ _ ?_ (fun _ => hos) ?_
    · refine ⟨?_, ?_, ?_⟩
      · show 2 ≤ (l.map _).length
        rw [List.length_map]
        omega
      · intro i hi
        rw [show (concatenation (l.map fun s => (⟨1, wrap (s.rows * s.cols * s.chans), 1⟩ : Shape))).inShapes = l.map fun s => (⟨1, wrap (s.rows * s.cols * s.chans), 1⟩ : Shape) from rfl,
          List.mem_map] at hi
        obtain ⟨s, _, rfl⟩ := hi
        exact ⟨rfl, rfl⟩
      · show ((l.map fun s => (⟨1, wrap (s.rows * s.cols * s.chans), 1⟩ : Shape)).map Shape.cols).sum < 2 ^ 64
        rw [List.map_map]
        show (l.map fun s => wrap (s.rows * s.cols * s.chans)).sum < 2 ^ 64
        rw [sum_wrapped _ ht]
        exact ht
    · intro q _ y hy hf
      have hm := vertexAt_mem _ _ _ hy
      rw [List.mem_map] at hm
      obtain ⟨s, _, rfl⟩ := hm
      cases hf.1
  have hlast : vertexAt (joinedVs l) (l.length + 1) = some (concatenation (l.map fun s => ⟨1, wrap (s.rows * s.cols * s.chans), 1⟩), List.range' 1 l.length) :=
    vertexAt_last _ _ _ (by simp)
  refine ⟨⟨⟨?_, by omega, ?_, ?_, ?_, ?_, ?_⟩, hcat, _, by rw [hlen]; exact hlast, hconc, ?_⟩, ?_⟩
  · intro h0; rw [h0] at h2; simp at h2
  · intro v h1 h3
    omega
  · intro i hi
    refine ⟨(flatV l[i], []), ?_, rfl, rfl, rfl⟩
    unfold vertexAt joinedVs
    rw [if_neg (by omega), Nat.add_sub_cancel, List.getElem?_append_left (by rw [List.length_map]; exact hi), List.getElem?_map, List.getElem?_eq_getElem hi]
    rfl
  · intro _
    unfold parentsAt
    rw [hst, hlast]
    rfl
  · intro v y hv hy
    have hr := (vertexAt_range _ _ _ hy).2
    have : v = l.length + 1 := by omega
    rw [this, hlast] at hy
    cases hy
    rfl
  · intro e he
    unfold joinedVs at he
    rw [List.mem_append, List.mem_map, List.mem_singleton] at he
    rcases he with ⟨s, _, rfl⟩ | rfl <;> rfl
  · intro hf
    cases hf.1
  · rw [hjs]
    exact takes_row _ ht

/-- The first hidden layer with its settings. -/
theorem first_good (c : Config) (t : Task) (h : Suited c t) :
    ∃ d, steps [] ((firstLayer c t).1 ++ (layerSettings c true).map (.set (firstLayer c t).2.1)) = some d ∧ (firstLayer c t).2.1 = d.length ∧
      Good t.given d (firstLayer c t).2.2 ∧
      if cnn t then over c.dropout (10 ^ 8) = false ∧ 0 < filters c ∧ Large (filters c) c.depth (firstLayer c t).2.2 ∧ (firstLayer c t).2.2.chans = filters c
      else (firstLayer c t).2.2 = ⟨1, wide c t, 1⟩ := by
  obtain ⟨given, expected, image, loss⟩ := t
  obtain ⟨ht, hw, _, h⟩ := h
  simp only at h ht ⊢
  match given, h, ht, hw with
  | [], h, _, _ => exact h.elim
  | [g], h, ht, hw =>
    have hgl := le_total [g] g (by simp)
    have hp : g.rows * g.cols * g.chans < 2 ^ 64 := lt_of_le_of_lt hgl ht
    cases image with
    | true =>
      simp only [if_true] at h
      obtain ⟨h1, h2, h3, h4⟩ := h
      have h4' := h4
      obtain ⟨b1, b2, b3, b4, b5, b6, b7⟩ := h4'
      obtain ⟨x, hx, c1, c2, c3, _, c5, c6, c7, c8⟩ := setAll_weighted (layerSettings c true)
        ⟨true, false, .convolution2dValid, .relu, true, false, 32, [g], convolved g (filters c), filters c, 3, false, false, false, five, 0#32, twoPercent⟩ rfl
      refine ⟨[(x, [])], ?_, rfl, ⟨single_line g x c1 c2 c5, ?_, (x, []), rfl, c6, ?_⟩, ?_⟩
      · show steps [] ([.inputFilters g (filters c) 3 .convolution2dValid .relu false] ++ _) = _
        rw [steps_append [] [(_, [])] _ _ rfl]
        exact steps_set [] _ _ [] 1 rfl _ hx
      · refine LocalFits.grow (d := []) (by intro e he; cases he) _ _ ?_ (fun hne => absurd rfl hne) (by simp)
        unfold FitsVertex
        rw [c3, c5, c7, c8]
        refine ⟨h2, ?_⟩
        intro i hi
        have hi' : i ∈ [g] := hi
        rw [List.mem_singleton] at hi'
        subst hi'
        exact ⟨h3, by show 3 ≤ i.rows; omega, by show 3 ≤ i.cols; omega, b4⟩
      · intro hf
        have := hf.1
        rw [c3] at this
        cases this
      · show if (decide (1 = 1) && true) = true then _ else _
        rw [if_pos (by simp)]
        exact ⟨h1, h2, large_next _ _ _ h2 h4, rfl⟩
    | false =>
      simp only [Bool.false_eq_true, if_false] at h
      obtain ⟨x, hx, c1, c2, c3, _, c5, c6, _⟩ := setAll_weighted (layerSettings c true) (plainV .full g ⟨1, wide c ⟨[g], expected, false, loss⟩, 1⟩ false true .relu) rfl
      refine ⟨[(x, [])], ?_, rfl, ⟨single_line g x c1 c2 c5, ?_, (x, []), rfl, c6, ?_⟩, ?_⟩
      · show steps [] ([.input g ⟨1, wide c ⟨[g], expected, false, loss⟩, 1⟩ .full .relu false] ++ _) = _
        rw [steps_append [] [(_, [])] _ _ rfl]
        exact steps_set [] _ _ [] 1 rfl _ hx
      · refine LocalFits.grow (d := []) (by intro e he; cases he) _ _ ?_ (fun hne => absurd rfl hne) (by simp)
        exact fits_full x _ g c3 c6 c5 hw h hp
      · intro hf
        have := hf.1
        rw [c3] at this
        cases this
      · show if (decide (1 = 1) && false) = true then _ else _
        rw [if_neg (by simp)]
        rfl
  | a :: b :: l, h, ht, hw =>
    obtain ⟨hg, htk⟩ := joined_good (a :: b :: l) (by simp) ht h
    have hlen : (joinedVs (a :: b :: l)).length = (a :: b :: l).length + 1 := by unfold joinedVs; simp
    obtain ⟨x, hx, hg'⟩ := hg.layer (wide c ⟨a :: b :: l, expected, image, loss⟩) hw htk .relu (layerSettings c true)
    refine ⟨_, ?_, ?_, hg', ?_⟩
    · show steps [] (joinedInputs (a :: b :: l) ++ [_] ++ _) = _
      rw [List.append_assoc, steps_append _ _ _ _ (joined_steps (a :: b :: l))]
      rw [hlen] at hx
      rw [hlen]
      exact hx
    · rw [List.length_append, hlen]
      rfl
    · have : cnn ⟨a :: b :: l, expected, image, loss⟩ = false := by
        unfold cnn
        simp
      rw [this]
      rfl

/-! ### All calls -/

/-- An output. -/
def outputV (c : Config) (t : Task) (s4 s : Shape) : Vertex := { plainV .full s4 s true false (lastAct t) with bias := c.bias }

theorem outputs_steps (c : Config) (t : Task) (s4 : Shape) (n : Nat) (l : List Shape) (k : Nat) (d : Dsl) (y : Vertex × List Nat) (hp : vertexAt d n = some y)
    (hd : d.length = n + k) :
    steps d ((l.zipIdx k).flatMap fun (s, i) => [.layer n s4 s .full (lastAct t) true, .set (n + 1 + i) (.bias c.bias)]) =
      some (d ++ l.map fun s => (outputV c t s4 s, [n])) := by
  induction l generalizing d k with
  | nil => simp [steps]
  | cons s l ih =>
    rw [List.zipIdx_cons, List.flatMap_cons]
    have h1 : steps d [.layer n s4 s .full (lastAct t) true, .set (n + 1 + k) (.bias c.bias)] = some (d ++ [(outputV c t s4 s, [n])]) := by
      show steps d ([.layer n s4 s .full (lastAct t) true] ++ [.set (n + 1 + k) (.bias c.bias)]) = _
      rw [steps_append _ _ _ _ (steps_layer d _ y hp _ _ _ _ _ (fun _ => rfl))]
      refine steps_set d _ _ _ _ (by omega) [.bias c.bias] ?_
      simp [Vertex.setAll, Vertex.set, plainV, Vertex.weighted, outputV]
    rw [steps_append _ _ _ _ h1, ih (k + 1) _ (vertexAt_left _ _ _ _ hp) (by rw [List.length_append, List.length_singleton]; omega)]
    simp

theorem fifth_aux (u N n : Nat) (hN : 0 < N) (hn : 6 ≤ n) (h : decide (N < u * n) = false) : decide (N ≤ u * 5) = false := by
  rw [decide_eq_false_iff_not, Nat.not_lt] at h
  rw [decide_eq_false_iff_not, Nat.not_le]
  have h1 : u * 6 ≤ u * n := Nat.mul_le_mul_left u hn
  omega

unseal over fifth in
theorem not_fifth (f : F32) (n : Nat) (hn : 6 ≤ n) (h : over f n = false) : fifth f = false :=
  fifth_aux (F32.units f) (2 ^ 149) n (Nat.pow_pos (by decide)) hn h

/-- The hidden layers with the first dropout layer. -/
theorem hidden_good (c : Config) (t : Task) (hw : wide c t < 2 ^ 64) (d : Dsl) (s : Shape) (positive : Bool) (rate : F32) (h : Good t.given d s)
    (hcase : if cnn t then positive = false ∧ fifth rate = false ∧ 0 < filters c ∧ Large (filters c) c.depth s ∧ s.chans = filters c else s = ⟨1, wide c t, 1⟩) :
    ∃ d', steps d ((firstDropout positive rate d.length s).1 ++
        (hiddenLayers c t c.depth (firstDropout positive rate d.length s).2.1 s (firstDropout positive rate d.length s).2.2).1) = some d' ∧
      (hiddenLayers c t c.depth (firstDropout positive rate d.length s).2.1 s (firstDropout positive rate d.length s).2.2).2.1 = d'.length ∧
      Good t.given d' (hiddenLayers c t c.depth (firstDropout positive rate d.length s).2.1 s (firstDropout positive rate d.length s).2.2).2.2 ∧
      Takes (hiddenLayers c t c.depth (firstDropout positive rate d.length s).2.1 s (firstDropout positive rate d.length s).2.2).2.2 := by
  by_cases hc : cnn t = true
  · rw [if_pos hc] at hcase
    obtain ⟨f1, f0, f2, f3, f4⟩ := hcase
    subst f1
    exact hidden_cnn c t hc f2 rate f0 c.depth d s h f3 f4
  · rw [if_neg hc] at hcase
    subst hcase
    have hc' : cnn t = false := by simpa using hc
    cases positive with
    | true =>
      obtain ⟨g1, g2⟩ := h.drop rfl
      have hlen : (d ++ [(dropV ⟨1, wide c t, 1⟩, [d.length])]).length = d.length + 1 := by simp
      have := hidden_dense c t hc' hw c.depth _ _ (rate * fifthF) g2 (takes_row _ hw)
      rw [hlen] at this
      obtain ⟨d', a1, a2⟩ := this
      refine ⟨d', ?_, a2⟩
      show steps d ([_] ++ _) = _
      rw [steps_append _ _ _ _ g1]
      exact a1
    | false => exact hidden_dense c t hc' hw c.depth _ _ rate h (takes_row _ hw)

theorem extra_good (c : Config) (t : Task) (hw : wideExpected c t < 2 ^ 64) (d : Dsl) (s : Shape) (h : Good t.given d s) (hs : Takes s) :
    ∃ d', steps d (extraLayer c t d.length s).1 = some d' ∧ (extraLayer c t d.length s).2.1 = d'.length ∧ Good t.given d' (extraLayer c t d.length s).2.2 ∧
      Takes (extraLayer c t d.length s).2.2 := by
  unfold extraLayer
  by_cases hce : t.loss = .categoricalCrossEntropy
  · rw [if_pos hce]
    obtain ⟨x, hx, hg⟩ := h.layer (wideExpected c t) hw hs .sigmoid []
    exact ⟨_, hx, by simp, hg, takes_row _ hw⟩
  · rw [if_neg hce]
    exact ⟨d, rfl, rfl, h, hs⟩

/-- The network of a configuration: a chain that fits together, with the outputs at its end. -/
theorem search_run (c : Config) (t : Task) (h : Suited c t) :
    ∃ d z, run (searchOps c t) = some (ended d (t.expected.map (outputV c t z))) ∧ Good t.given d z ∧ Takes z := by
  obtain ⟨d1, e1, e2, e3, e4⟩ := first_good c t h
  have hcase : if cnn t then over c.dropout (10 ^ 8) = false ∧ fifth c.dropout = false ∧ 0 < filters c ∧ Large (filters c) c.depth (firstLayer c t).2.2 ∧
      (firstLayer c t).2.2.chans = filters c else (firstLayer c t).2.2 = ⟨1, wide c t, 1⟩ := by
    split
    · rename_i hc
      rw [if_pos hc] at e4
      exact ⟨e4.1, not_fifth _ _ (by norm_num) e4.1, e4.2⟩
    · rename_i hc
      rw [if_neg hc] at e4
      exact e4
  clear e4
  unfold searchOps
  revert hcase
  generalize over c.dropout (10 ^ 8) = b
  generalize firstLayer c t = a at *
  intro hcase
  obtain ⟨ops1, n1, s1⟩ := a
  simp only at e1 e2 e3 hcase ⊢
  subst e2
  obtain ⟨d3, k1, k2, k3, k4⟩ := hidden_good c t h.2.1 d1 s1 b c.dropout e3 hcase
  generalize firstDropout b c.dropout d1.length s1 = q at *
  generalize hiddenLayers c t c.depth q.2.1 s1 q.2.2 = r at *
  obtain ⟨d4, m1, m2, m3, m4⟩ := extra_good c t h.2.2.1 d3 r.2.2 k3 k4
  rw [← k2] at m1 m2 m3 m4
  generalize extraLayer c t r.2.1 r.2.2 = e at *
  refine ⟨d4, e.2.2, ?_, m3, m4⟩
  obtain ⟨_, _, y, hy, _⟩ := m3
  show steps [] _ = _
  rw [List.append_assoc, List.append_assoc, List.append_assoc, steps_append _ _ _ _ e1, ← List.append_assoc q.1, steps_append _ _ _ _ k1,
    steps_append _ _ _ _ m1, m2]
  unfold outputLayers
  rw [outputs_steps c t e.2.2 d4.length t.expected 0 d4 y hy rfl]
  unfold ended
  rw [List.map_map]
  rfl

end Verif.SearchNetwork
