import Verif.Model.Facts
import Verif.Props.C106_Shapes

/-!
# C153: what a network reports about itself
-/
namespace Verif.Facts
open Verif Verif.Dsl Verif.Wiring Verif.Enums

/-! ### Specification -/

/-- The number of elements of a shape. -/
def elements (s : Shape) : Nat := s.rows * s.cols * s.chans

/-- How many numbers training may change in the layers of a vertex: a weight for every pair of an input and an output, or the kernels of all filters, and the biases. -/
def parametersOf (x : Vertex) : Nat :=
  (match x.kind with
   | .full => (x.inShapes.map fun i => elements i * elements x.outShape).sum
   | .convolution2dValid => (x.inShapes.map fun i => x.filters * (x.kernel * x.kernel * i.chans)).sum
   | _ => 0) + if x.bias then elements x.outShape else 0

/-- How many layers of a vertex have such numbers. -/
def layersOf (x : Vertex) : Nat := (if x.kind = .full ∨ x.kind = .convolution2dValid then 1 else 0) + if x.bias then 1 else 0

/-! ### Helpers -/

theorem wrap_sum (l : List Nat) : wrap (l.map wrap).sum = wrap l.sum := by
  unfold wrap
  induction l with
  | nil => rfl
  | cons a l ih => rw [List.map_cons, List.sum_cons, List.sum_cons, Nat.add_mod, ih, Nat.mod_mod, ← Nat.add_mod]

theorem wrap_add (a b : Nat) : wrap (wrap a + wrap b) = wrap (a + b) := by
  unfold wrap; rw [← Nat.add_mod]

theorem wrap_wrap (a : Nat) : wrap (wrap a) = wrap a := Nat.mod_mod _ _

theorem wrap_mul (a b : Nat) : wrap (wrap a * wrap b) = wrap (a * b) := by
  unfold wrap; rw [← Nat.mul_mod]

theorem countP_flattenFirst (i : Shape) : (flattenFirst i).countP trainable = 0 := by
  unfold flattenFirst; split <;> rfl

theorem sum_flattenFirst (i : Shape) : ((flattenFirst i).map parameters).sum = 0 := by
  unfold flattenFirst; split <;> rfl

/-- The layers of a vertex whose shapes fit. -/
theorem parts_counts (d : Dsl) (v : Nat) (x : Vertex) (ps : List Nat) (hs : Sound d v x ps) (hf : FitsVertex x) (p : Params) :
    ∃ l, parts p x = some l ∧ wrap (l.map parameters).sum = wrap (parametersOf x) ∧ l.countP trainable = layersOf x := by
  have hrest : ∀ m : List Part, ∀ n k : Nat, wrap (m.map parameters).sum = wrap n → m.countP trainable = k →
      ∃ l, (some m).map (fun l => l ++ (if x.bias then [.bias ⟨⟨x.outShape.rows, x.outShape.cols, x.outShape.chans, p.bias⟩, 0, []⟩] else []) ++
        (if x.norm then [.normalize p.normalized] else []) ++ (if x.weighted then [.activation x.act] else [])) = some l ∧
        wrap (l.map parameters).sum = wrap (n + if x.bias then elements x.outShape else 0) ∧ l.countP trainable = k + if x.bias then 1 else 0 := by
    intro m n k h1 h2
    refine ⟨_, rfl, ?_, ?_⟩
    · rw [List.map_append, List.map_append, List.map_append, List.sum_append, List.sum_append, List.sum_append]
      have e1 : ((if x.norm then [Part.normalize p.normalized] else []).map parameters).sum = 0 := by split <;> rfl
      have e2 : ((if x.weighted then [Part.activation x.act] else []).map parameters).sum = 0 := by split <;> rfl
      simp only [e1, e2, Nat.add_zero]; rw [← wrap_add, h1]
      split
      · show wrap (wrap n + wrap (size _ + 0)) = _
        rw [Nat.add_zero, size, wrap_wrap, wrap_add]; rfl
      · show wrap (wrap n + wrap 0) = _
        rw [wrap_add]
    · rw [List.countP_append, List.countP_append, List.countP_append, h2]
      have e1 : (if x.norm then [Part.normalize p.normalized] else []).countP trainable = 0 := by split <;> rfl
      have e2 : (if x.weighted then [Part.activation x.act] else []).countP trainable = 0 := by split <;> rfl
      simp only [e1, e2, Nat.add_zero]
      split <;> rfl
  have hone : x.kind ≠ .concatenate → ∃ i, x.inShapes = [i] := by
    intro hk
    rcases hs.2 with ⟨_, _, i, hi, _⟩ | ⟨_, _, _, _, i, _, _, _, hi, _⟩ | ⟨_, h, _⟩
    · exact ⟨i, hi⟩
    · exact ⟨i, hi⟩
    · exact absurd h hk
  unfold parts parametersOf layersOf mainParts
  cases hk : x.kind with
  | full =>
    obtain ⟨i, hi⟩ := hone (by rw [hk]; decide)
    simp only [hi, List.head?_cons, Option.map_some, List.map_cons, List.map_nil, List.sum_cons, List.sum_nil, Nat.add_zero]
    refine hrest _ _ _ ?_ ?_
    · rw [List.map_append, List.sum_append, sum_flattenFirst, Nat.zero_add]
      show wrap (size _ + 0) = _
      rw [Nat.add_zero, size, wrap_wrap, Nat.mul_one]
      exact wrap_mul _ _
    · rw [List.countP_append, countP_flattenFirst]; simp [trainable]
  | convolution2dValid =>
    obtain ⟨i, hi⟩ := hone (by rw [hk]; decide)
    simp only [hi, List.head?_cons, Option.map_some, List.map_cons, List.map_nil, List.sum_cons, List.sum_nil, Nat.add_zero]
    refine hrest _ _ _ ?_ ?_
    · simp only [List.map_cons, List.map_nil, List.sum_cons, List.sum_nil, Nat.add_zero, parameters, List.map_map]
      have : (size ∘ fun f => (⟨x.kernel, x.kernel, i.chans, p.kernel f⟩ : Tensor ℝ)) = fun _ => wrap (x.kernel * x.kernel * i.chans) := rfl
      rw [this, List.map_const', List.length_range, List.sum_replicate, smul_eq_mul, ← wrap_mul, wrap_wrap, wrap_mul]
    · simp [trainable]
  | concatenate =>
    unfold FitsVertex at hf
    rw [hk] at hf
    simp only at hf
    have hdecl : ∃ o, Views.concatShape (x.inShapes.map fun s => (s.rows, s.cols, s.chans)) = some o := by
      refine ⟨(1, ((x.inShapes.map fun s => (s.rows, s.cols, s.chans)).map (·.2.1)).sum, 1), ?_⟩
      rw [Views.C31_declared_shape]
      refine ⟨by simpa using hf.1, ?_, rfl⟩
      intro y hy
      rw [List.mem_map] at hy
      obtain ⟨s, hs, rfl⟩ := hy
      exact hf.2.1 s hs
    obtain ⟨o, ho⟩ := hdecl
    simp only [ho, Option.map_some]
    exact hrest _ _ _ rfl (by simp [trainable])
  | flatten => exact hrest _ _ _ rfl (by simp [trainable])
  | normalize => exact hrest _ _ _ rfl (by simp [trainable])
  | dropout =>
    obtain ⟨i, hi⟩ := hone (by rw [hk]; decide)
    simp only [hi, List.head?_cons, Option.map_some]
    refine hrest _ _ _ ?_ ?_
    · rw [List.map_append, List.sum_append, sum_flattenFirst]; rfl
    · rw [List.countP_append, countP_flattenFirst]; simp [trainable]

/-- A sum over all vertices by their numbers. -/
theorem sum_vertices (d : Dsl) (seen : List Nat) (hn : seen.Nodup) (hseen : ∀ v, v ∈ seen ↔ 1 ≤ v ∧ v ≤ d.length) (f : Nat → Nat) (g : Vertex → Nat)
    (h : ∀ v x, vertexAt d v = some x → f v = g x.1) : (seen.map f).sum = (d.map fun e => g e.1).sum := by
  have hp : seen.Perm ((List.range d.length).map (· + 1)) := by
    rw [List.perm_ext_iff_of_nodup hn ((List.nodup_range).map (fun a b h => Nat.succ.inj h))]
    intro v
    rw [hseen, List.mem_map]
    constructor
    · rintro ⟨h1, h2⟩; exact ⟨v - 1, List.mem_range.2 (by omega), by omega⟩
    · rintro ⟨i, hi, rfl⟩; have := List.mem_range.1 hi; omega
  rw [(hp.map f).sum_eq, List.map_map]
  congr 1
  apply List.ext_getElem?
  intro i
  rw [List.getElem?_map, List.getElem?_map]
  by_cases hi : i < d.length
  · rw [List.getElem?_range hi, List.getElem?_eq_getElem hi]
    simp only [Option.map_some, Function.comp]
    rw [h (i + 1) d[i] (by unfold vertexAt; rw [if_neg (by omega), Nat.add_sub_cancel, List.getElem?_eq_getElem hi])]
  · rw [List.getElem?_eq_none (by simpa using hi), List.getElem?_eq_none (by simpa using hi)]; rfl

/-- Everything is counted, once. -/
theorem total_all (d : Dsl) (hs : AllSound d) (hf : Wiring.Fits d) (w : Wires) (hw : wires d = some w) (count : Nat → Nat) :
    ∃ n visited, Graph.total w.conns count (d.length + 1) (heads d) = some (n, visited) ∧ visited.Nodup ∧ (∀ v, v ∈ visited ↔ 1 ≤ v ∧ v ≤ d.length) ∧
      n = (visited.map count).sum := by
  have hr := rooted_of_fits d hs hf
  obtain ⟨w', hw', hn, hseen, houts, hp⟩ := wires_ok d hs.forward hr
  rw [hw] at hw'; cases hw'
  obtain ⟨wf, hnode, hedge⟩ := wellFormed d hs hr w hn hseen hp
  obtain ⟨⟨n, visited⟩, ht⟩ := Graph.C58_ends w.conns count id d.length wf.ranked (d.length + 1) (by omega) (heads d)
  obtain ⟨h1, h2, h3⟩ := Graph.C58 w.conns count _ _ n visited ht
  refine ⟨n, visited, ht, h1, ?_, h3⟩
  intro v
  rw [h2]
  constructor
  · intro h
    induction h with
    | head v hv => obtain ⟨x, hx, _⟩ := (mem_heads d v).1 hv; exact vertexAt_range d v x hx
    | next e he _ _ =>
      have h4 := hs.forward _ _ (hedge e he)
      have h5 := parentsAt_range d _ _ (hedge e he)
      omega
  · rintro ⟨a, b⟩
    induction v using Nat.strong_induction_on with
    | _ v ih =>
      rcases hnode v a b with h | ⟨e, he, rfl⟩
      · exact .head v h
      · have h4 := hs.forward _ _ (hedge e he)
        have h5 := parentsAt_range d _ _ (hedge e he)
        exact .next e he (ih _ h4.2 h4.1 (by omega))

/-! ### Theorems -/

/-- For every description whose shapes fit together, and whatever the numbers in its layers are, so also after training: the network reports the number of its weights, kernels
and biases, and of the layers that have them, modulo 2^64. -/
theorem C153_reported (ops : List Op) (hu : ∀ o ∈ ops, o.Usual) (d : Dsl) (h : run ops = some d) (hf : Wiring.Fits d) (p : Nat → Params) :
    facts d p = some (wrap (d.map fun e => parametersOf e.1).sum, wrap (d.map fun e => layersOf e.1).sum) := by
  have hs := run_sound ops hu d h
  have hr := rooted_of_fits d hs hf
  obtain ⟨w, hw, _, hseen, _⟩ := wires_ok d hs.forward hr
  have hl : ∀ v x, vertexAt d v = some x → ∃ l, layers d p v = some l ∧ wrap (l.map parameters).sum = wrap (parametersOf x.1) ∧ l.countP trainable = layersOf x.1 := by
    intro v x hx
    obtain ⟨l, h1, h2⟩ := parts_counts d v x.1 x.2 (hs v x.1 x.2 hx) (hf.1 _ (vertexAt_mem d v x hx)).1 (p v)
    exact ⟨l, by unfold layers; rw [hx]; exact h1, h2⟩
  have hall : (w.seen.any fun v => (layers d p v).isNone) = false := by
    rw [List.any_eq_false]
    intro v hv
    obtain ⟨a, b⟩ := (hseen v).1 hv
    obtain ⟨x, hx⟩ := vertexAt_some d v a b
    obtain ⟨l, h1, _⟩ := hl v x hx
    rw [h1]; simp
  obtain ⟨n, vs, hn, hn1, hn2, hn3⟩ := total_all d hs hf w hw fun v => (((layers d p v).getD []).map parameters).sum
  obtain ⟨t, us, ht, ht1, ht2, ht3⟩ := total_all d hs hf w hw fun v => ((layers d p v).getD []).countP trainable
  have e1 : wrap n = wrap (d.map fun e => parametersOf e.1).sum := by
    rw [hn3, ← wrap_sum, List.map_map, sum_vertices d vs hn1 hn2 _ (fun x => wrap (parametersOf x))]
    · rw [← wrap_sum (d.map fun e => parametersOf e.1), List.map_map]; rfl
    · intro v x hx
      obtain ⟨l, h1, h2, _⟩ := hl v x hx
      simp only [Function.comp, h1, Option.getD_some]
      exact h2
  have e2 : t = (d.map fun e => layersOf e.1).sum := by
    rw [ht3]
    refine sum_vertices d us ht1 ht2 _ _ ?_
    intro v x hx
    obtain ⟨l, h1, _, h2⟩ := hl v x hx
    simp only [h1, Option.getD_some]
    exact h2
  unfold facts
  rw [hw, Option.bind_some, if_neg (by rw [hall]; simp), hn, Option.bind_some, ht, Option.map_some, e1, e2]

/-- Below 2^64 the reported numbers are exact. -/
theorem C153_exact_partial (ops : List Op) (hu : ∀ o ∈ ops, o.Usual) (d : Dsl) (h : run ops = some d) (hf : Wiring.Fits d) (p : Nat → Params)
    (h1 : (d.map fun e => parametersOf e.1).sum < 2 ^ 64) (h2 : (d.map fun e => layersOf e.1).sum < 2 ^ 64) :
    facts d p = some ((d.map fun e => parametersOf e.1).sum, (d.map fun e => layersOf e.1).sum) := by
  rw [C153_reported ops hu d h hf p]
  congr 2 <;> exact Nat.mod_eq_of_lt (by assumption)

/-- A full layer with 2^32 inputs and outputs: the number of its weights does not fit into 64 bits. -/
def hugeOps : List Op := [.input ⟨1, 2 ^ 32, 1⟩ ⟨1, 2 ^ 32, 1⟩ .full .relu true]

/-- Numbers from 2^64 on are not reported: this network has 2^64 parameters and reports none. -/
theorem C153_wrap_violated (p : Nat → Params) :
    ∃ d, run hugeOps = some d ∧ Wiring.Fits d ∧ (d.map fun e => parametersOf e.1).sum = 2 ^ 64 ∧ facts d p = some (0, 1) := by
  have hr : (run hugeOps).isSome = true := by decide +kernel
  obtain ⟨d, hd⟩ := Option.isSome_iff_exists.1 hr
  have hall : (run hugeOps).all (fun d : Dsl => decide (Wiring.Fits d) && decide ((d.map fun e => parametersOf e.1).sum = 2 ^ 64) && decide (wrap (d.map fun e => parametersOf e.1).sum = 0) &&
      decide (wrap (d.map fun e => layersOf e.1).sum = 1)) = true := by decide +kernel
  rw [hd] at hall
  simp only [Option.all_some, Bool.and_eq_true, decide_eq_true_eq] at hall
  obtain ⟨⟨⟨h1, h2⟩, h3⟩, h4⟩ := hall
  refine ⟨d, hd, h1, h2, ?_⟩
  rw [C153_reported hugeOps (by decide) d hd h1 p, h3, h4]

/-- A picture of 28 by 28 points, eight kernels of 3 by 3, a hidden layer that is shared by two outputs. -/
def pictureOps : List Op :=
  [.inputFilters ⟨28, 28, 1⟩ 8 3 .convolution2dValid .relu false, .set 1 (.bias true), .layer 1 ⟨26, 26, 8⟩ ⟨1, 20, 1⟩ .full .relu false, .set 2 (.bias true),
   .layer 2 ⟨1, 20, 1⟩ ⟨1, 10, 1⟩ .full .softmax true, .layer 2 ⟨1, 20, 1⟩ ⟨1, 1, 1⟩ .full .sigmoid true, .set 4 (.bias true)]

/-- 72 + 5408 + 108160 + 20 + 200 + 20 + 1 parameters in seven layers. -/
example : (∀ o ∈ pictureOps, o.Usual) ∧ (run pictureOps).all (fun d : Dsl => decide (Wiring.Fits d) && decide ((d.map fun e => parametersOf e.1).sum = 113881) &&
    decide ((d.map fun e => layersOf e.1).sum = 7)) = true ∧ (run pictureOps).isSome = true := by decide +kernel

end Verif.Facts
