import Verif.Model.LabelNetwork
import Verif.Props.C107_C108_Order

/-! The description of the network of a label task: its vertices. -/

namespace Verif.LabelNetwork
open Verif Verif.Enums Verif.Dsl Verif.Wiring

/-! ### Calls -/

/-- A sequence of calls on a description. -/
def steps (d : Dsl) (ops : List Op) : Option Dsl := ops.foldlM step d

theorem steps_append (d d' : Dsl) (a b : List Op) (h : steps d a = some d') : steps d (a ++ b) = steps d' b := by
  unfold steps at *
  rw [List.foldlM_append, h]
  rfl

/-- What `plain` makes. -/
def plainV (kind : LayerType) (i o : Shape) (out given : Bool) (act : ActivationType) : Vertex :=
  ⟨given, out, kind, act, false, false, 32, [i], o, 0, 0, decide (kind = .full), false, false, five, 0#32, twoPercent⟩

theorem plain_eq (kind : LayerType) (i o : Shape) (out given : Bool) (act : ActivationType) (h : out = true → kind = .full) :
    plain kind i o out given act = some (plainV kind i o out given act) := by
  unfold plain
  rw [if_neg]
  · rfl
  · rintro ⟨h1, h2⟩
    exact h2 (h h1)

/-- What the settings of a hidden layer make of it. -/
def tuned (n : LabelNet) (x : Vertex) : Vertex :=
  { x with l2 := true, clip := true, norm := x.norm || decide (n.loss = .categoricalCrossEntropy), bits := if n.memory then 8 else x.bits,
           materialized := if n.memory then false else x.materialized }

theorem setAll_tuning (n : LabelNet) (x : Vertex) (h : x.weighted = true) : x.setAll (tuning n) = some (tuned n x) := by
  unfold tuning Vertex.setAll tuned
  have hw : ∀ y : Vertex, y.kind = x.kind → y.weighted = true := by
    intro y hy
    unfold Vertex.weighted at h ⊢
    rw [hy]
    exact h
  have e1 : Vertex.set x (.l2 true) = some { x with l2 := true } := by simp [Vertex.set, h]
  have e2 : Vertex.set { x with l2 := true } (.clip true) = some { x with l2 := true, clip := true } := rfl
  have e3 : Vertex.set { x with l2 := true, clip := true } (.norm true) = some { x with l2 := true, clip := true, norm := true } := by
    simp [Vertex.set, hw { x with l2 := true, clip := true } rfl]
  have e4 : ∀ y : Vertex, Vertex.set y (.bits 8) = some { y with bits := 8 } := fun _ => rfl
  have e5 : ∀ y : Vertex, Vertex.set y (.materialized false) = some { y with materialized := false } := fun y => by simp [Vertex.set]
  by_cases hc : n.loss = .categoricalCrossEntropy
  · by_cases hm : n.memory = true
    · simp only [hc, hm, if_true, List.cons_append, List.nil_append, List.foldlM_cons, List.foldlM_nil, e1, e2, e3, e4, e5, Option.bind_eq_bind, Option.bind_some]
      simp
    · simp only [hc, hm, if_true, List.cons_append, List.nil_append, List.foldlM_cons, List.foldlM_nil, e1, e2, e3, Option.bind_eq_bind, Option.bind_some,
        List.append_nil]
      simp
  · by_cases hm : n.memory = true
    · simp only [hc, hm, if_true, if_false, List.cons_append, List.nil_append, List.foldlM_cons, List.foldlM_nil, e1, e2, e4, e5, Option.bind_eq_bind,
        Option.bind_some, List.append_nil]
      simp
    · simp only [hc, hm, if_false, List.cons_append, List.nil_append, List.foldlM_cons, List.foldlM_nil, e1, e2, Option.bind_eq_bind, Option.bind_some,
        List.append_nil]
      simp

theorem vertexAt_last (d : Dsl) (x : Vertex × List Nat) (v : Nat) (hv : v = d.length + 1) : vertexAt (d ++ [x]) v = some x := by
  subst hv
  unfold vertexAt
  rw [if_neg (by omega)]
  simp

theorem vertexAt_left (d e : Dsl) (v : Nat) (x : Vertex × List Nat) (h : vertexAt d v = some x) : vertexAt (d ++ e) v = some x := by
  unfold vertexAt at h ⊢
  split at h
  · cases h
  · rename_i h0
    rw [if_neg h0, List.getElem?_append_left]
    · exact h
    · exact (List.getElem?_eq_some_iff.1 h).1

/-- Settings of the vertex made last. -/
theorem steps_set (d : Dsl) (x y : Vertex) (ps : List Nat) (v : Nat) (hv : v = d.length + 1) (l : List Setting) (h : x.setAll l = some y) :
    steps (d ++ [(x, ps)]) (l.map (.set v)) = some (d ++ [(y, ps)]) := by
  induction l generalizing x with
  | nil =>
    have : x = y := by simpa [Vertex.setAll] using h
    rw [this]
    rfl
  | cons s l ih =>
    unfold Vertex.setAll at h
    rw [List.foldlM_cons] at h
    cases hs : x.set s with
    | none => rw [hs] at h; cases h
    | some z =>
      rw [hs] at h
      have hstep : step (d ++ [(x, ps)]) (.set v s) = some (d ++ [(z, ps)]) := by
        show (vertexAt (d ++ [(x, ps)]) v).bind _ = _
        rw [vertexAt_last _ _ _ hv, Option.bind_some]
        simp only [hs, Option.map_some]
        subst hv
        simp
      unfold steps
      rw [List.map_cons, List.foldlM_cons, hstep]
      exact ih z h

theorem steps_layer (d : Dsl) (p : Nat) (y : Vertex × List Nat) (hp : vertexAt d p = some y) (i o : Shape) (k : LayerType) (a : ActivationType) (out : Bool)
    (h : out = true → k = .full) : steps d [.layer p i o k a out] = some (d ++ [(plainV k i o out false a, [p])]) := by
  unfold steps
  rw [List.foldlM_cons]
  show ((vertexAt d p).bind fun _ => (plain k i o out false a).map fun v => d ++ [(v, [p])]).bind _ = _
  rw [hp, Option.bind_some, plain_eq _ _ _ _ _ _ h]
  rfl

/-! ### The vertices -/

/-- An input that flattens, the concatenation, and the first hidden layer. -/
def flatV (s : Shape) : Vertex := plainV .flatten s ⟨1, wrap (s.rows * s.cols * s.chans), 1⟩ false true .linear

def firstV (n : LabelNet) : Vertex :=
  match n.given with
  | [g] =>
    if n.image then
      tuned n ⟨true, false, .convolution2dValid, n.act, true, true, 32, [g], firstShape n, 1, 3, false, false, false, five, 0#32, twoPercent⟩
    else tuned n { plainV .full g ⟨1, widthGiven n, 1⟩ false true n.act with bias := true }
  | l => tuned n (plainV .full (joinedShape l) ⟨1, widthGiven n, 1⟩ false false n.act)

theorem firstV_joined (n : LabelNet) (h : ∀ g, n.given ≠ [g]) :
    firstV n = tuned n (plainV .full (joinedShape n.given) ⟨1, widthGiven n, 1⟩ false false n.act) := by
  unfold firstV
  split
  · rename_i g hg
    exact absurd hg (h g)
  · rfl

/-- What comes before the first hidden layer. -/
def before (n : LabelNet) : Dsl :=
  if n.given.length ≤ 1 then []
  else n.given.map (fun s => (flatV s, [])) ++
    [(concatenation (n.given.map fun s => ⟨1, wrap (s.rows * s.cols * s.chans), 1⟩), List.range' 1 n.given.length)]

theorem before_length (n : LabelNet) : (before n).length + 1 = first n := by
  unfold before first
  by_cases h : n.given.length ≤ 1
  · rw [if_pos h, if_pos h]; rfl
  · rw [if_neg h, if_neg h]; simp

def firstParents (n : LabelNet) : List Nat := if n.given.length ≤ 1 then [] else [n.given.length + 1]

def secondV (n : LabelNet) : Vertex :=
  tuned n { plainV .full (firstShape n) ⟨1, secondWidth n, 1⟩ false false n.act with bias := true }

def dropV (s : Shape) : Vertex := plainV .dropout s s false false .linear

def extraV (n : LabelNet) : Vertex := plainV .full ⟨1, secondWidth n, 1⟩ ⟨1, widthExpected n 1, 1⟩ false false .sigmoid

def outV (n : LabelNet) (s : Shape) : Vertex := { plainV .full (lastShape n) s true false (lastAct n) with bias := true }

def upToFirst (n : LabelNet) : Dsl := before n ++ [(firstV n, firstParents n)]

def hiddenVs (n : LabelNet) : Dsl :=
  upToFirst n ++ [(dropV (firstShape n), [first n])] ++ [(secondV n, [first n + 1])] ++ [(dropV ⟨1, secondWidth n, 1⟩, [first n + 2])] ++
    (if n.loss = .categoricalCrossEntropy then [(extraV n, [first n + 3])] else [])

def vertices (n : LabelNet) : Dsl := hiddenVs n ++ n.expected.map fun s => (outV n s, [lastHidden n])

theorem upToFirst_length (n : LabelNet) : (upToFirst n).length = first n := by
  unfold upToFirst
  rw [List.length_append, ← before_length]
  rfl

theorem hiddenVs_length (n : LabelNet) : (hiddenVs n).length = lastHidden n := by
  unfold hiddenVs lastHidden
  simp only [List.length_append, upToFirst_length, List.length_singleton]
  split <;> simp

theorem vertices_length (n : LabelNet) : (vertices n).length = lastHidden n + n.expected.length := by
  unfold vertices
  rw [List.length_append, hiddenVs_length, List.length_map]

theorem inputs_steps (l : List Shape) (d : Dsl) :
    steps d (l.map fun s => .input s ⟨1, wrap (s.rows * s.cols * s.chans), 1⟩ .flatten .linear false) = some (d ++ l.map fun s => (flatV s, [])) := by
  induction l generalizing d with
  | nil => simp [steps]
  | cons s l ih =>
    unfold steps at ih ⊢
    rw [List.map_cons, List.foldlM_cons]
    have : step d (.input s ⟨1, wrap (s.rows * s.cols * s.chans), 1⟩ .flatten .linear false) = some (d ++ [(flatV s, [])]) := by
      show (plain .flatten s ⟨1, wrap (s.rows * s.cols * s.chans), 1⟩ false true .linear).map (fun v => d ++ [(v, [])]) = _
      rw [plain_eq _ _ _ _ _ _ (by intro h; cases h)]
      rfl
    rw [this]
    show List.foldlM step _ _ = _
    rw [ih]
    simp

theorem outShapes_flat (l : List Shape) (d e : Dsl) :
    outShapes (d ++ l.map (fun s => (flatV s, [])) ++ e) (List.range' (d.length + 1) l.length) =
      some (l.map fun s => ⟨1, wrap (s.rows * s.cols * s.chans), 1⟩) := by
  induction l generalizing d with
  | nil => rfl
  | cons s l ih =>
    have h1 : vertexAt (d ++ (s :: l).map (fun s => (flatV s, [])) ++ e) (d.length + 1) = some (flatV s, []) := by
      unfold vertexAt
      rw [if_neg (by omega)]
      simp
    unfold outShapes at ih ⊢
    rw [List.length_cons, List.range'_succ, List.mapM_cons, h1]
    have := ih (d ++ [(flatV s, [])])
    rw [List.length_append, List.length_singleton] at this
    rw [show d ++ (s :: l).map (fun s => (flatV s, ([] : List Nat))) ++ e = d ++ [(flatV s, [])] ++ l.map (fun s => (flatV s, [])) ++ e by simp, this]
    rfl

theorem first_ok (n : LabelNet) (hg : n.given ≠ []) (l : List Op) (hl : firstOps n = some l) :
    steps [] (l ++ (tuning n).map (.set (first n))) = some (upToFirst n) := by
  unfold firstOps at hl
  unfold upToFirst firstParents before first
  split at hl
  · rename_i h; exact absurd h hg
  · rename_i g h
    unfold firstV
    simp only [h, List.length_singleton, le_refl, if_true, List.nil_append]
    by_cases hi : n.image = true
    · rw [if_pos hi] at hl ⊢
      rw [← Option.some.inj hl, steps_append [] [(_, [])] _ _ (by
        show steps [] ([.inputFilters g 1 3 .convolution2dValid n.act false] ++ [.set 1 (.bias true)]) = _
        rw [steps_append [] [(_, [])] _ _ rfl]
        exact steps_set [] _ _ [] 1 rfl [.bias true] rfl)]
      have : firstShape n = ⟨wrap (g.rows + 2 ^ 64 - 3 + 1), wrap (g.cols + 2 ^ 64 - 3 + 1), 1⟩ := by
        unfold firstShape; rw [h]; simp [hi]
      rw [this]
      exact steps_set [] _ _ [] 1 rfl _ (setAll_tuning n _ rfl)
    · rw [if_neg hi] at hl ⊢
      rw [← Option.some.inj hl, steps_append [] [(_, [])] _ _ (by
        show steps [] ([.input g ⟨1, widthGiven n, 1⟩ .full n.act false] ++ [.set 1 (.bias true)]) = _
        rw [steps_append [] [(_, [])] _ _ rfl]
        exact steps_set [] _ _ [] 1 rfl [.bias true] rfl)]
      exact steps_set [] _ _ [] 1 rfl _ (setAll_tuning n _ rfl)
  · rename_i g h1 h2
    have hlen : ¬ n.given.length ≤ 1 := by
      cases hn : n.given with
      | nil => exact absurd hn hg
      | cons a l =>
        cases l with
        | nil => exact absurd hn (h2 a)
        | cons b l => simp
    simp only [if_neg hlen]
    rw [← Option.some.inj hl]
    unfold joinedInputs
    rw [List.append_assoc, List.append_assoc, steps_append _ _ _ _ (inputs_steps n.given [])]
    have hc : steps ([] ++ n.given.map fun s => (flatV s, [])) [.concat (List.range' 1 n.given.length)] =
        some (n.given.map (fun s => (flatV s, [])) ++
          [(concatenation (n.given.map fun s => ⟨1, wrap (s.rows * s.cols * s.chans), 1⟩), List.range' 1 n.given.length)]) := by
      have := outShapes_flat n.given [] []
      rw [List.append_nil, List.length_nil, Nat.zero_add] at this
      unfold steps
      rw [List.foldlM_cons]
      show ((outShapes _ _).map _).bind _ = _
      rw [List.nil_append] at this ⊢
      rw [this]
      rfl
    rw [steps_append _ _ _ _ hc, steps_append _ _ _ _ (steps_layer _ _ _ (vertexAt_last _ _ _ (by simp)) _ _ _ _ _ (by intro h; cases h))]
    rw [firstV_joined n h2]
    exact steps_set _ _ _ _ _ (by simp) _ (setAll_tuning n _ rfl)

theorem outputs_ok (n : LabelNet) (l : List Shape) (k : Nat) (d : Dsl) (y : Vertex × List Nat) (hp : vertexAt d (lastHidden n) = some y)
    (hd : d.length = lastHidden n + k) :
    steps d ((l.zipIdx k).flatMap fun (s, i) => [.layer (lastHidden n) (lastShape n) s .full (lastAct n) true, .set (lastHidden n + 1 + i) (.bias true)]) =
      some (d ++ l.map fun s => (outV n s, [lastHidden n])) := by
  induction l generalizing d k with
  | nil => simp [steps]
  | cons s l ih =>
    rw [List.zipIdx_cons, List.flatMap_cons]
    have h1 : steps d [.layer (lastHidden n) (lastShape n) s .full (lastAct n) true, .set (lastHidden n + 1 + k) (.bias true)] =
        some (d ++ [(outV n s, [lastHidden n])]) := by
      show steps d ([.layer (lastHidden n) (lastShape n) s .full (lastAct n) true] ++ [.set (lastHidden n + 1 + k) (.bias true)]) = _
      rw [steps_append _ _ _ _ (steps_layer d _ y hp _ _ _ _ _ (fun _ => rfl))]
      exact steps_set d _ _ _ _ (by omega) [.bias true] rfl
    rw [steps_append _ _ _ _ h1, ih (k + 1) _ (vertexAt_left _ _ _ _ hp) (by rw [List.length_append, List.length_singleton]; omega)]
    simp

theorem vertexAt_of_le (d : Dsl) (v : Nat) (h1 : 1 ≤ v) (h2 : v ≤ d.length) : ∃ y, vertexAt d v = some y := by
  unfold vertexAt
  rw [if_neg (by omega)]
  exact ⟨d[v - 1], List.getElem?_eq_getElem (by omega)⟩

theorem first_pos (n : LabelNet) : 1 ≤ first n := by rw [← before_length]; omega

/-- The calls succeed and describe these vertices. -/
theorem labelOps_ok (n : LabelNet) (hg : n.given ≠ []) : ∃ ops, labelOps n = some ops ∧ run ops = some (vertices n) := by
  unfold labelOps
  cases hl : firstOps n with
  | none =>
    unfold firstOps at hl
    split at hl
    · rename_i h; exact absurd h hg
    · split at hl <;> cases hl
    · cases hl
  | some l =>
    refine ⟨_, rfl, ?_⟩
    show steps [] _ = _
    have hf := first_pos n
    have hu := upToFirst_length n
    have h1 : steps (upToFirst n) [.layer (first n) (firstShape n) (firstShape n) .dropout .linear false,
        .layer (first n + 1) (firstShape n) ⟨1, secondWidth n, 1⟩ .full n.act false, .set (first n + 2) (.bias true)] =
        some (upToFirst n ++ [(dropV (firstShape n), [first n])] ++
          [({ plainV .full (firstShape n) ⟨1, secondWidth n, 1⟩ false false n.act with bias := true }, [first n + 1])]) := by
      show steps (upToFirst n) ([.layer (first n) (firstShape n) (firstShape n) .dropout .linear false] ++
        ([.layer (first n + 1) (firstShape n) ⟨1, secondWidth n, 1⟩ .full n.act false] ++ [.set (first n + 2) (.bias true)])) = _
      obtain ⟨y, hy⟩ := vertexAt_of_le (upToFirst n) (first n) hf (by omega)
      rw [steps_append _ _ _ _ (steps_layer _ _ y hy _ _ _ _ _ (by intro h; cases h)),
        steps_append _ _ _ _ (steps_layer _ _ _ (vertexAt_last _ _ _ (by omega)) _ _ _ _ _ (by intro h; cases h))]
      exact steps_set _ _ _ _ _ (by simp; omega) [.bias true] rfl
    rw [steps_append [] (hiddenVs n)]
    · obtain ⟨y, hy⟩ := vertexAt_of_le (hiddenVs n) (lastHidden n) (by unfold lastHidden; split <;> omega) (by rw [hiddenVs_length])
      exact outputs_ok n n.expected 0 (hiddenVs n) y hy (hiddenVs_length n)
    · rw [List.append_assoc, List.append_assoc, List.append_assoc, steps_append [] _ _ _ (first_ok n hg l hl), steps_append _ _ _ _ h1,
        steps_append _ _ _ _ (steps_set _ _ _ _ _ (by simp; omega) _ (setAll_tuning n _ rfl)),
        steps_append _ _ _ _ (steps_layer _ _ _ (vertexAt_last _ _ _ (by simp; omega)) _ _ _ _ _ (by intro h; cases h))]
      unfold extraOps hiddenVs
      by_cases hc : n.loss = .categoricalCrossEntropy
      · rw [if_pos hc, if_pos hc]
        exact steps_layer _ _ _ (vertexAt_last _ _ _ (by simp; omega)) _ _ _ _ _ (by intro h; cases h)
      · rw [if_neg hc, if_neg hc, List.append_nil]
        rfl

end Verif.LabelNetwork
