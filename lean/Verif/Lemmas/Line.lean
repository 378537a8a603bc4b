import Verif.Props.C109_LabelNetwork

/-! Networks that are a chain of layers behind their inputs, with outputs at its end: what they predict. -/

namespace Verif.SearchNetwork
open Verif Verif.Enums Verif.Dsl Verif.Wiring Verif.Views Verif.Layers Verif.LabelNetwork

/-- The vertex from which the rest is a chain: the only input, or the concatenation of several. -/
def start (given : List Shape) : Nat := if given.length ≤ 1 then 1 else given.length + 1

/-- A chain behind the inputs, without outputs. -/
structure Line (given : List Shape) (d : Dsl) : Prop where
  some_given : given ≠ []
  long : start given ≤ d.length
  chain : ∀ v, start given < v → v ≤ d.length → parentsAt d v = [v - 1]
  inputs : ∀ i (h : i < given.length), ∃ y, vertexAt d (i + 1) = some y ∧ y.1.inShapes = [given[i]] ∧ y.1.accepts = true ∧ y.2 = []
  join : 1 < given.length → parentsAt d (start given) = List.range' 1 given.length
  inner : ∀ v y, given.length < v → vertexAt d v = some y → y.1.accepts = false
  hidden : ∀ e ∈ d, e.1.output = false

theorem start_pos (given : List Shape) : 1 ≤ start given := by unfold start; split <;> omega

theorem le_start (given : List Shape) (h : given ≠ []) : given.length ≤ start given := by
  have := List.length_pos_iff.2 h
  unfold start; split <;> omega

theorem vertexAt_app (d e : Dsl) (v : Nat) (h : v ≤ d.length) : vertexAt (d ++ e) v = vertexAt d v := by
  unfold vertexAt
  split
  · rfl
  · rw [List.getElem?_append_left (by omega)]

theorem parentsAt_app (d e : Dsl) (v : Nat) (h : v ≤ d.length) : parentsAt (d ++ e) v = parentsAt d v := by
  unfold parentsAt
  rw [vertexAt_app d e v h]

theorem parentsAt_last (d : Dsl) (x : Vertex × List Nat) : parentsAt (d ++ [x]) (d.length + 1) = x.2 := by
  unfold parentsAt
  rw [vertexAt_last _ _ _ rfl]
  rfl

/-- One more layer at the end. -/
theorem Line.grow {given : List Shape} {d : Dsl} (h : Line given d) (x : Vertex) (ha : x.accepts = false) (ho : x.output = false) :
    Line given (d ++ [(x, [d.length])]) := by
  have hl : (d ++ [(x, [d.length])]).length = d.length + 1 := by simp
  have hle := le_start given h.some_given
  have hlong := h.long
  refine ⟨h.some_given, by omega, ?_, ?_, ?_, ?_, ?_⟩
  · intro v h1 h2
    rw [hl] at h2
    by_cases hv : v ≤ d.length
    · rw [parentsAt_app _ _ _ hv]; exact h.chain v h1 hv
    · have : v = d.length + 1 := by omega
      subst this
      rw [parentsAt_last]
      simp
  · intro i hi
    obtain ⟨y, hy, h2⟩ := h.inputs i hi
    exact ⟨y, vertexAt_left _ _ _ _ hy, h2⟩
  · intro h1
    rw [parentsAt_app _ _ _ h.long]
    exact h.join h1
  · intro v y hv hy
    by_cases hv' : v ≤ d.length
    · rw [vertexAt_app _ _ _ hv'] at hy
      exact h.inner v y hv hy
    · have := (vertexAt_range _ _ _ hy).2
      have : v = d.length + 1 := by omega
      rw [vertexAt_last _ _ _ this] at hy
      cases hy
      exact ha
  · intro e he
    rw [List.mem_append, List.mem_singleton] at he
    rcases he with he | rfl
    · exact h.hidden e he
    · exact ho

/-- A chain with outputs at its end. -/
def ended (d : Dsl) (outs : List Vertex) : Dsl := d ++ outs.map fun x => (x, [d.length])

theorem ended_length (d : Dsl) (outs : List Vertex) : (ended d outs).length = d.length + outs.length := by unfold ended; simp

theorem ended_at (d : Dsl) (outs : List Vertex) (i : Nat) (hi : i < outs.length) : vertexAt (ended d outs) (d.length + 1 + i) = some (outs[i], [d.length]) := by
  unfold vertexAt ended
  rw [if_neg (by omega), List.getElem?_append_right (by omega), show d.length + 1 + i - 1 - d.length = i by omega, List.getElem?_map,
    List.getElem?_eq_getElem hi]
  rfl

theorem ended_out (d : Dsl) (outs : List Vertex) (v : Nat) (h1 : d.length < v) (h2 : v ≤ d.length + outs.length) :
    ∃ x ∈ outs, vertexAt (ended d outs) v = some (x, [d.length]) := by
  refine ⟨outs[v - d.length - 1]'(by omega), List.getElem_mem _, ?_⟩
  have := ended_at d outs (v - d.length - 1) (by omega)
  rw [show d.length + 1 + (v - d.length - 1) = v by omega] at this
  exact this

section
variable {given : List Shape} {d : Dsl} (h : Line given d) (outs : List Vertex) (hacc : ∀ x ∈ outs, x.accepts = false) (hout : ∀ x ∈ outs, x.output = true)
include h

theorem ended_parents (v : Nat) (h1 : d.length < v) (h2 : v ≤ d.length + outs.length) : parentsAt (ended d outs) v = [d.length] := by
  obtain ⟨x, _, hx⟩ := ended_out d outs v h1 h2
  unfold parentsAt
  rw [hx]
  rfl

theorem ended_lineage (hd : Forward (ended d outs)) (v : Nat) (h1 : start given < v) (h2 : v ≤ d.length + outs.length) :
    (parentsAt (ended d outs) v).length = 1 ∧ start given ≤ addedTo (ended d outs) v ∧ addedTo (ended d outs) v ∈ lineage (ended d outs) (v - 1) := by
  have hlong := h.long
  have hsp := start_pos given
  by_cases hv : v ≤ d.length
  · have hp : parentsAt (ended d outs) v = [v - 1] := by
      unfold ended
      rw [parentsAt_app _ _ _ hv]; exact h.chain v h1 hv
    have ha : addedTo (ended d outs) v = v - 1 := by unfold addedTo; rw [hp]; rfl
    rw [ha, hp]
    exact ⟨rfl, by omega, lineage_self _ hd _⟩
  · have hp := ended_parents h outs v (by omega) h2
    have ha : addedTo (ended d outs) v = d.length := by unfold addedTo; rw [hp]; rfl
    rw [ha, hp]
    refine ⟨rfl, hlong, ?_⟩
    by_cases he : v - 1 = d.length
    · rw [he]
      exact lineage_self _ hd _
    · have hp' := ended_parents h outs (v - 1) (by omega) (by omega)
      have ha' : addedTo (ended d outs) (v - 1) = d.length := by unfold addedTo; rw [hp']; rfl
      rw [lineage_step _ hd (v - 1) (by omega), ha']
      exact List.mem_cons_of_mem _ (lineage_self _ hd _)

include hacc in
theorem ended_accepts (v : Nat) (x : Vertex × List Nat) (hx : vertexAt (ended d outs) v = some x) : x.1.accepts = true ↔ v ≤ given.length := by
  have hr := vertexAt_range _ _ _ hx
  rw [ended_length] at hr
  have hle := le_start given h.some_given
  have hlong := h.long
  constructor
  · intro ha
    by_contra hgt
    by_cases hv : v ≤ d.length
    · unfold ended at hx
      rw [vertexAt_app _ _ _ hv] at hx
      rw [h.inner v x (by omega) hx] at ha
      cases ha
    · obtain ⟨y, hy, hy'⟩ := ended_out d outs v (by omega) hr.2
      rw [hy'] at hx
      cases hx
      rw [hacc y hy] at ha
      cases ha
  · intro hv
    obtain ⟨y, hy, _, ha, _⟩ := h.inputs (v - 1) (by omega)
    rw [show v - 1 + 1 = v by omega] at hy
    unfold ended at hx
    rw [vertexAt_left _ _ _ _ hy] at hx
    cases hx
    exact ha

include hacc in
theorem ended_heads : heads (ended d outs) = List.range' 1 given.length := by
  have h1 := heads_sorted (ended d outs)
  have h2 : (List.range' 1 given.length).Pairwise (· < ·) := List.pairwise_lt_range' (step := 1) (by omega)
  apply List.Perm.eq_of_pairwise (le := (· < ·)) _ h1 h2
  · rw [List.perm_ext_iff_of_nodup (h1.imp fun h => by omega) (h2.imp fun h => by omega)]
    intro v
    rw [mem_heads, List.mem_range'_1]
    have hle := le_start given h.some_given
    have hlong := h.long
    constructor
    · rintro ⟨x, hx, ha⟩
      have hr := vertexAt_range _ _ _ hx
      have := (ended_accepts h outs hacc v x hx).1 ha
      omega
    · rintro ⟨ha, hb⟩
      obtain ⟨x, hx⟩ := vertexAt_some (ended d outs) v ha (by rw [ended_length]; omega)
      exact ⟨x, hx, (ended_accepts h outs hacc v x hx).2 (by omega)⟩
  · intro a b _ _ h h'; omega

include hout in
theorem ended_outputs : outputsOf (ended d outs) = List.range' (d.length + 1) outs.length := by
  have hflag : ∀ v, 1 ≤ v → v ≤ d.length + outs.length → ((vertexAt (ended d outs) v).map fun x => x.1.output).getD false = decide (d.length < v) := by
    intro v h1 h2
    by_cases hv : d.length < v
    · obtain ⟨x, hx, hx'⟩ := ended_out d outs v hv h2
      rw [hx', Option.map_some, Option.getD_some, hout x hx]
      simp [hv]
    · obtain ⟨x, hx⟩ := vertexAt_some d v h1 (by omega)
      unfold ended
      rw [vertexAt_left _ _ _ _ hx, Option.map_some, Option.getD_some, h.hidden x (vertexAt_mem _ _ _ hx)]
      simp [hv]
  unfold outputsOf
  rw [ended_length, List.filter_congr (q := fun v => decide (d.length < v)) (by
    intro v hv
    rw [List.mem_range'_1] at hv
    exact hflag v hv.1 (by omega)),
    show List.range' 1 (d.length + outs.length) = List.range' 1 d.length ++ List.range' (d.length + 1) outs.length by
      rw [show d.length + 1 = 1 + 1 * d.length by omega, List.range'_append], List.filter_append]
  have e1 : (List.range' 1 d.length).filter (fun v => decide (d.length < v)) = [] := by
    rw [List.filter_eq_nil_iff]
    intro v hv
    rw [List.mem_range'_1] at hv
    simp
    omega
  have e2 : (List.range' (d.length + 1) outs.length).filter (fun v => decide (d.length < v)) = List.range' (d.length + 1) outs.length := by
    rw [List.filter_eq_self]
    intro v hv
    rw [List.mem_range'_1] at hv
    simp
    omega
  rw [e1, e2, List.nil_append]

theorem ended_childless (hd : Forward (ended d outs)) (v : Nat) (hv : d.length < v) : children (ended d outs) v = [] := by
  rw [List.eq_nil_iff_forall_not_mem]
  intro c hc
  rw [mem_children] at hc
  have hr := parentsAt_range _ _ _ hc
  rw [ended_length] at hr
  have hf := hd c v hc
  by_cases h1 : c ≤ d.length
  · omega
  · rw [ended_parents h outs c (by omega) (by omega), List.mem_singleton] at hc
    omega

include hacc in
theorem ended_rooted (hd : Forward (ended d outs)) : Rooted (ended d outs) := by
  intro v x hx hp
  have hr := vertexAt_range _ _ _ hx
  rw [ended_length] at hr
  have hpa : parentsAt (ended d outs) v = [] := by unfold parentsAt; rw [hx]; exact hp
  have hpos := List.length_pos_iff.2 h.some_given
  have hlong := h.long
  rw [ended_accepts h outs hacc v x hx]
  by_contra hgt
  rcases Nat.lt_trichotomy v (start given) with hv | hv | hv
  · unfold start at hv
    split at hv <;> omega
  · have h1 : 1 < given.length := by
      unfold start at hv
      split at hv <;> omega
    have hj := h.join h1
    unfold ended at hpa
    rw [hv, parentsAt_app _ _ _ hlong, hj] at hpa
    have := congrArg List.length hpa
    rw [List.length_range', List.length_nil] at this
    omega
  · have := (ended_lineage h outs hd v hv (by omega)).1
    rw [hpa] at this
    cases this

include hacc in
theorem ended_ordered (hd : Forward (ended d outs)) : (Forest (ended d outs) ∧ DepthFirst (ended d outs)) ∨ ∃ c, Joined (ended d outs) c := by
  have hpos := List.length_pos_iff.2 h.some_given
  have hlong := h.long
  by_cases h1 : given.length ≤ 1
  · have hb : start given = 1 := by unfold start; rw [if_pos h1]
    have hroot : parentsAt (ended d outs) 1 = [] := by
      obtain ⟨y, hy, _, _, hps⟩ := h.inputs 0 hpos
      unfold parentsAt ended
      rw [vertexAt_left _ _ _ _ hy]
      exact hps
    have hall : ∀ v, 1 ≤ v → v ≤ (ended d outs).length →
        (parentsAt (ended d outs) v).length ≤ 1 ∧ addedTo (ended d outs) v ∈ lineage (ended d outs) (v - 1) := by
      intro v hv1 hv2
      rw [ended_length] at hv2
      by_cases hv : v = 1
      · subst hv
        have ha : addedTo (ended d outs) 1 = 0 := by unfold addedTo; rw [hroot]; rfl
        rw [hroot, ha]
        exact ⟨by simp, lineage_self _ hd _⟩
      · obtain ⟨c1, _, c3⟩ := ended_lineage h outs hd v (by omega) hv2
        exact ⟨by omega, c3⟩
    left
    refine ⟨?_, ?_⟩
    · intro x hx
      obtain ⟨i, hi, rfl⟩ := List.mem_iff_getElem.1 hx
      have := (hall (i + 1) (by omega) (by omega)).1
      unfold parentsAt vertexAt at this
      rw [if_neg (by omega), Nat.add_sub_cancel, List.getElem?_eq_getElem hi] at this
      exact this
    · intro v hv
      rw [List.mem_map] at hv
      obtain ⟨i, hi, rfl⟩ := hv
      rw [List.mem_range] at hi
      obtain ⟨a1, a2⟩ := hall (i + 1) (by omega) (by omega)
      have hshort : (parentsAt (ended d outs) (i + 1)).Pairwise (· < ·) ∧ (parentsAt (ended d outs) (i + 1)).dropLast = [] := by
        cases hp : parentsAt (ended d outs) (i + 1) with
        | nil => simp
        | cons a l =>
          rw [hp] at a1
          cases l with
          | nil => simp
          | cons b l => simp at a1
      refine ⟨hshort.1, a2, ?_, ?_⟩
      · rw [hshort.2]
        intro q hq
        cases hq
      · intro hp
        obtain ⟨x, hx⟩ := vertexAt_some (ended d outs) (i + 1) (by omega) (by omega)
        rw [hx, Option.map_some]
        rw [ended_rooted h outs hacc hd (i + 1) x hx (by unfold parentsAt at hp; rw [hx] at hp; exact hp)]
  · right
    have hb : start given = given.length + 1 := by unfold start; rw [if_neg h1]
    refine ⟨start given, by omega, by rw [ended_length]; omega, ?_, ?_, ?_⟩
    · unfold ended
      rw [parentsAt_app _ _ _ hlong, h.join (by omega), hb, Nat.add_sub_cancel]
    · intro v hv
      rw [List.mem_range'_1] at hv
      obtain ⟨y, hy, _, _, hps⟩ := h.inputs (v - 1) (by omega)
      rw [show v - 1 + 1 = v by omega] at hy
      have hy' : vertexAt (ended d outs) v = some y := vertexAt_left _ _ _ _ hy
      refine ⟨by unfold parentsAt; rw [hy']; exact hps, ?_⟩
      rw [hy', Option.map_some, h.hidden y (vertexAt_mem _ _ _ hy)]
    · intro v hv
      rw [List.mem_range'_1, ended_length] at hv
      exact ended_lineage h outs hd v (by omega) (by omega)

include hacc hout in
/-- What a chain with outputs predicts, from the value at the end of the chain. -/
theorem ended_predict (hs : AllSound (ended d outs)) (hf : LocalFits d) (y : Vertex × List Nat) (hy : vertexAt d d.length = some y) (hyf : ¬ flattens y.1)
    (p : Nat → Params) (ts : List (Tensor ℝ)) (hts : List.Forall₂ HasShape ts given) :
    ∃ z, HasShape z y.1.outShape ∧ ∃ val, Computes (ended d outs) p ts val ∧
      predict (ended d outs) p ts = some ((outputsOf (ended d outs)).map fun v => some (val v)) ∧
      (outputsOf (ended d outs)).map (fun v => some (val v)) =
        (List.range outs.length).map fun i => some ((parts (p (d.length + 1 + i)) (outs.getD i y.1)).bind fun l => chain l [z]) := by
  have hd := hs.forward
  obtain ⟨w, val, w1, w2, w3, w4, w5, w6⟩ := eval (ended d outs) hs (ended_rooted h outs hacc hd) (ended_ordered h outs hacc hd) (by
    intro v hv
    rw [ended_outputs h outs hout, List.mem_range'_1] at hv
    exact ended_childless h outs hd v (by omega)) p ts
  have hvals := values_shape (ended d outs) hs w w1 w2 w3 p (column ts) val w4 d.length (by
    intro v x _ hx ha s hs'
    have hv := (ended_accepts h outs hacc v x hx).1 ha
    have hr := vertexAt_range _ _ _ hx
    obtain ⟨y', hy', e, _⟩ := h.inputs (v - 1) (by omega)
    rw [show v - 1 + 1 = v by omega] at hy'
    have : vertexAt (ended d outs) v = some y' := vertexAt_left _ _ _ _ hy'
    rw [hx] at this
    cases this
    rw [e, List.mem_singleton] at hs'
    subst hs'
    have := (List.forall₂_iff_get.1 hts).2 (v - 1) (by rw [hts.length_eq]; omega) (by omega)
    simp only [column]
    rw [List.getD_eq_getElem?_getD, List.getElem?_eq_getElem (by rw [hts.length_eq]; omega), Option.getD_some]
    exact this) (by
    intro v x hv hx
    have hx' := hx
    unfold ended at hx'
    rw [vertexAt_app _ _ _ hv] at hx'
    obtain ⟨a1, a2, a3⟩ := hf x (vertexAt_mem _ _ _ hx')
    refine ⟨a1, fun hne => outShapes_left _ _ _ _ (a2 hne), ?_⟩
    intro q hq hfl
    apply a3 q hq
    obtain ⟨z, hz'⟩ := outShapes_some _ _ _ (a2 (List.ne_nil_of_mem hq)) q hq
    rw [hz']
    unfold ended at hfl
    rw [vertexAt_left _ _ _ _ hz'] at hfl
    exact hfl)
  obtain ⟨z, hz, hzs⟩ := hvals d.length y le_rfl (vertexAt_left _ _ _ _ hy)
  rw [show delivered y.1 = y.1.outShape by unfold delivered; rw [if_neg hyf]] at hzs
  refine ⟨z, hzs, val, w5, ?_, ?_⟩
  · rw [← w6, ended_heads h outs hacc, ← hts.length_eq, map_column]
  · rw [ended_outputs h outs hout, List.range'_eq_map_range, List.map_map]
    apply List.map_congr_left
    intro i hi
    rw [List.mem_range] at hi
    have hv := ended_at d outs i hi
    simp only [Function.comp]
    congr 1
    rw [w5 _ _ hv]
    unfold vertexLayer
    rw [hv, Option.bind_some]
    simp only [hacc _ (List.getElem_mem hi), Bool.false_eq_true, if_false, List.map_cons, List.map_nil, hz]
    rw [List.getD_eq_getElem?_getD, List.getElem?_eq_getElem hi, Option.getD_some]
    rfl
end

/-! ### Outputs -/

/-- A full output layer behind a layer of a shape it can work with: it delivers a single row; a bias raises an exception unless that is the declared shape. -/
theorem output_vertex (q : Params) (x : Vertex) (i : Shape) (hk : x.kind = .full) (hi : x.inShapes = [i]) (hn : x.norm = false) (h1 : 1 < i.rows ∨ (i.rows = 1 ∧ i.chans = 1))
    (h2 : i.rows * i.cols * i.chans < 2 ^ 64) (t : Tensor ℝ) (ht : HasShape t i) :
    if x.bias = true ∧ ¬ (x.outShape = ⟨1, wrapped x.outShape, 1⟩) then ((parts q x).bind fun l => chain l [t]) = none
    else ∃ z u, ((parts q x).bind fun l => chain l [t]) = some z ∧ z = activated x.act u ∧ HasShape z ⟨1, wrapped x.outShape, 1⟩ := by
  have hwl : wrapped x.outShape < 2 ^ 64 := Nat.mod_lt _ (by positivity)
  have hww : wrapped (⟨1, wrapped x.outShape, 1⟩ : Shape) = wrapped x.outShape := by
    show wrap (1 * wrapped x.outShape * 1) = _
    rw [Nat.one_mul, Nat.mul_one]
    exact Nat.mod_eq_of_lt hwl
  obtain ⟨l, z, e1, e2, e3⟩ := main_shape q { x with outShape := ⟨1, wrapped x.outShape, 1⟩ } i hi (fits_full _ (wrapped x.outShape) i hk rfl hi hwl h1 h2)
    (by rw [hk]; simp) (by intro hc; rw [hk] at hc; cases hc) t (Or.inl ht)
  have hm : mainParts q x = some l := by
    rw [← e1]
    unfold mainParts
    simp only [hk, hi, List.head?_cons, Option.map_some, hww]
  have hnf : delivered { x with outShape := ⟨1, wrapped x.outShape, 1⟩ } = ⟨1, wrapped x.outShape, 1⟩ := by
    unfold delivered
    rw [if_neg]
    rintro ⟨h, _⟩
    rw [show ({ x with outShape := (⟨1, wrapped x.outShape, 1⟩ : Shape) } : Vertex).kind = x.kind from rfl, hk] at h
    cases h
  rw [hnf] at e3
  have hw : x.weighted = true := by unfold Vertex.weighted; rw [hk]; rfl
  have hparts : parts q x = some (l ++ (if x.bias then [.bias ⟨⟨x.outShape.rows, x.outShape.cols, x.outShape.chans, q.bias⟩, 0, []⟩] else []) ++ [.activation x.act]) := by
    unfold parts
    rw [hm, Option.map_some, hn, hw]
    simp
  rw [hparts, Option.bind_some]
  by_cases hb : x.bias = true
  · rw [if_pos hb, List.append_assoc, chain_append l _ [t] z e2 (by simp)]
    show if _ then (Part.forward _ [z]).bind (fun y => Part.forward (.activation x.act) [y]) = none else ∃ z' u, (Part.forward _ [z]).bind (fun y => Part.forward (.activation x.act) [y]) = some z' ∧ _
    by_cases hsame : x.outShape = ⟨1, wrapped x.outShape, 1⟩
    · rw [if_neg (by rintro ⟨_, h⟩; exact h hsame)]
      have hf : Part.forward (.bias ⟨⟨x.outShape.rows, x.outShape.cols, x.outShape.chans, q.bias⟩, 0, []⟩) [z] =
          some ⟨z.rows, z.cols, z.chans, fun r c k => z.get r c k + q.bias r c k⟩ := by
        simp only [Part.forward, Bias.forward, add, zip]
        rw [if_neg]
        rw [e3.1, e3.2.1, e3.2.2]
        conv => rw [hsame]
        simp [hww]
      rw [hf, Option.bind_some]
      exact ⟨_, _, rfl, rfl, activated_shape _ _ _ e3⟩
    · rw [if_pos ⟨hb, hsame⟩]
      have hf : Part.forward (.bias ⟨⟨x.outShape.rows, x.outShape.cols, x.outShape.chans, q.bias⟩, 0, []⟩) [z] = none := by
        simp only [Part.forward, Bias.forward, add, zip]
        rw [if_pos]
        rw [e3.1, e3.2.1, e3.2.2]
        by_contra hc
        simp only [not_or, ne_eq, not_not] at hc
        apply hsame
        obtain ⟨c1, c2, c3⟩ := hc
        revert c1 c2 c3
        generalize wrapped x.outShape = w
        cases x.outShape with
        | mk r c k =>
          intro c1 c2 c3
          simp only at c1 c2 c3
          rw [← c1, ← c2, ← c3]
      rw [hf]
      rfl
  · rw [if_neg hb, List.append_nil, if_neg (by rintro ⟨h, _⟩; exact hb h), chain_append l _ [t] z e2 (by simp)]
    exact ⟨_, _, rfl, rfl, activated_shape _ _ _ e3⟩

end Verif.SearchNetwork
