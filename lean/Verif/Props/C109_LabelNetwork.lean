import Verif.Lemmas.LabelFits

/-!
C109: the network of a label task takes the records of its dataset, columns in order, and predicts a tensor of the right shape for every expected column, in
order.
-/

namespace Verif.LabelNetwork
open Verif Verif.Enums Verif.Dsl Verif.Wiring Verif.Views Verif.Layers

/-! ### Order -/

theorem allSound (n : LabelNet) (hg : n.given ≠ []) : AllSound (vertices n) := by
  obtain ⟨ops, h1, h2⟩ := labelOps_ok n hg
  exact run_sound ops (labelOps_usual n ops h1) _ h2

theorem outputsOf_vertices (n : LabelNet) : outputsOf (vertices n) = List.range' (lastHidden n + 1) n.expected.length := by
  have hflag : ∀ v, 1 ≤ v → v ≤ lastHidden n + n.expected.length →
      ((vertexAt (vertices n) v).map fun x => x.1.output).getD false = decide (lastHidden n < v) := by
    intro v h1 h2
    unfold vertexAt
    rw [if_neg (by omega), ← List.getElem?_map, outputs_list]
    by_cases hv : lastHidden n < v
    · rw [List.getElem?_append_right (by simp; omega), List.getElem?_replicate, if_pos (by simp; omega)]
      simp [hv]
    · rw [List.getElem?_append_left (by simp; omega), List.getElem?_replicate, if_pos (by omega)]
      simp [hv]
  unfold outputsOf
  rw [vertices_length, List.filter_congr (q := fun v => decide (lastHidden n < v)) (by
    intro v hv
    rw [List.mem_range'_1] at hv
    exact hflag v hv.1 (by omega)),
    show List.range' 1 (lastHidden n + n.expected.length) = List.range' 1 (lastHidden n) ++ List.range' (lastHidden n + 1) n.expected.length by
      rw [show lastHidden n + 1 = 1 + 1 * lastHidden n by omega, List.range'_append], List.filter_append]
  have e1 : (List.range' 1 (lastHidden n)).filter (fun v => decide (lastHidden n < v)) = [] := by
    rw [List.filter_eq_nil_iff]
    intro v hv
    rw [List.mem_range'_1] at hv
    simp
    omega
  have e2 : (List.range' (lastHidden n + 1) n.expected.length).filter (fun v => decide (lastHidden n < v)) = List.range' (lastHidden n + 1) n.expected.length := by
    rw [List.filter_eq_self]
    intro v hv
    rw [List.mem_range'_1] at hv
    simp
    omega
  rw [e1, e2, List.nil_append]

theorem heads_vertices (n : LabelNet) (hg : n.given ≠ []) : heads (vertices n) = List.range' 1 n.given.length := by
  have hlen : n.given.length ≤ lastHidden n := by
    unfold lastHidden first
    have := List.length_pos_iff.2 hg
    split <;> split <;> omega
  have hflag : ∀ i, i < lastHidden n + n.expected.length → (((vertices n)[i]?).map fun x => x.1.accepts).getD false = decide (i < n.given.length) := by
    intro i hi
    rw [← List.getElem?_map, accepts_list n hg]
    by_cases hv : i < n.given.length
    · rw [List.getElem?_append_left (by simp; omega), List.getElem?_replicate, if_pos hv]
      simp [hv]
    · rw [List.getElem?_append_right (by simp; omega), List.getElem?_replicate, if_pos (by simp; omega)]
      simp [hv]
  unfold heads
  rw [vertices_length, List.filter_congr (q := fun i => decide (i < n.given.length)) (by
    intro i hi
    exact hflag i (List.mem_range.1 hi))]
  have : (List.range (lastHidden n + n.expected.length)).filter (fun i => decide (i < n.given.length)) = List.range n.given.length := by
    rw [show lastHidden n + n.expected.length = n.given.length + (lastHidden n - n.given.length + n.expected.length) by omega, List.range_add, List.filter_append]
    have e1 : (List.range n.given.length).filter (fun i => decide (i < n.given.length)) = List.range n.given.length := by
      rw [List.filter_eq_self]
      intro i hi
      simpa using hi
    have e2 : ((List.range (lastHidden n - n.given.length + n.expected.length)).map (n.given.length + ·)).filter (fun i => decide (i < n.given.length)) = [] := by
      rw [List.filter_eq_nil_iff]
      intro i hi
      rw [List.mem_map] at hi
      obtain ⟨j, _, rfl⟩ := hi
      simp
    rw [e1, e2, List.append_nil]
  rw [this, List.range'_eq_map_range]
  apply List.map_congr_left
  intro i _
  omega

theorem parents_base (n : LabelNet) (h1 : n.given.length = 1) : parentsAt (vertices n) 1 = [] :=
  (parents_at n).2.2.1 1 (by omega) (by omega) (Or.inl h1)

theorem chain_lineage (n : LabelNet) (hg : n.given ≠ []) (v : Nat) (h1 : base n < v) (h2 : v ≤ lastHidden n + n.expected.length) :
    (parentsAt (vertices n) v).length = 1 ∧ base n ≤ addedTo (vertices n) v ∧ addedTo (vertices n) v ∈ lineage (vertices n) (v - 1) := by
  obtain ⟨p1, p2, _, _⟩ := parents_at n
  have hd := (allSound n hg).forward
  obtain ⟨b1, b2⟩ := base_le n
  by_cases hv : v ≤ lastHidden n
  · have hp := p1 v h1 hv
    have ha : addedTo (vertices n) v = v - 1 := by unfold addedTo; rw [hp]; rfl
    rw [ha, hp]
    exact ⟨rfl, by omega, lineage_self _ hd _⟩
  · have hp := p2 v (by omega) h2
    have ha : addedTo (vertices n) v = lastHidden n := by unfold addedTo; rw [hp]; rfl
    rw [ha, hp]
    refine ⟨rfl, b2, ?_⟩
    by_cases he : v - 1 = lastHidden n
    · rw [he]
      exact lineage_self _ hd _
    · have hp' := p2 (v - 1) (by omega) (by omega)
      have ha' : addedTo (vertices n) (v - 1) = lastHidden n := by unfold addedTo; rw [hp']; rfl
      rw [lineage_step _ hd (v - 1) (by omega), ha']
      exact List.mem_cons_of_mem _ (lineage_self _ hd _)

theorem ordered (n : LabelNet) (hg : n.given ≠ []) :
    (Forest (vertices n) ∧ DepthFirst (vertices n)) ∨ ∃ c, Joined (vertices n) c := by
  have hs := allSound n hg
  have hd := hs.forward
  obtain ⟨b1, b2⟩ := base_le n
  have hpos := List.length_pos_iff.2 hg
  by_cases h1 : n.given.length ≤ 1
  · have hl : n.given.length = 1 := by omega
    have hb : base n = 1 := by unfold base; rw [if_pos h1]
    have hroot := parents_base n hl
    have hall : ∀ v, 1 ≤ v → v ≤ (vertices n).length →
        (parentsAt (vertices n) v).length ≤ 1 ∧ addedTo (vertices n) v ∈ lineage (vertices n) (v - 1) ∧ (parentsAt (vertices n) v = [] → v = 1) := by
      intro v hv1 hv2
      rw [vertices_length] at hv2
      by_cases hv : v = 1
      · subst hv
        have ha : addedTo (vertices n) 1 = 0 := by unfold addedTo; rw [hroot]; rfl
        rw [hroot, ha]
        exact ⟨by simp, lineage_self _ hd _, fun _ => rfl⟩
      · obtain ⟨c1, _, c3⟩ := chain_lineage n hg v (by omega) hv2
        exact ⟨by omega, c3, fun h => by rw [h] at c1; simp at c1⟩
    left
    refine ⟨?_, ?_⟩
    · intro x hx
      obtain ⟨i, hi, rfl⟩ := List.mem_iff_getElem.1 hx
      have := (hall (i + 1) (by omega) (by omega)).1
      unfold parentsAt vertexAt at this
      rw [if_neg (by omega), Nat.add_sub_cancel, List.getElem?_eq_getElem hi] at this
      exact this
    · intro v hv
      rw [List.mem_map] at hv
      obtain ⟨i, hi, rfl⟩ := hv
      rw [List.mem_range] at hi
      obtain ⟨a1, a2, a3⟩ := hall (i + 1) (by omega) (by omega)
      have hshort : (parentsAt (vertices n) (i + 1)).Pairwise (· < ·) ∧ (parentsAt (vertices n) (i + 1)).dropLast = [] := by
        cases hp : parentsAt (vertices n) (i + 1) with
        | nil => simp
        | cons a l =>
          rw [hp] at a1
          cases l with
          | nil => simp
          | cons b l => simp at a1
      refine ⟨hshort.1, a2, ?_, ?_⟩
      · rw [hshort.2]
        intro q hq
        cases hq
      · intro hp
        rw [a3 hp]
        have hh : 1 ∈ heads (vertices n) := by rw [heads_vertices n hg, hl]; simp
        obtain ⟨x, hx, ha⟩ := (mem_heads _ _).1 hh
        rw [hx, Option.map_some, ha]
  · right
    have hb : base n = n.given.length + 1 := by unfold base; rw [if_neg h1]
    obtain ⟨_, _, p3, p4⟩ := parents_at n
    refine ⟨base n, by omega, by rw [vertices_length]; omega, ?_, ?_, ?_⟩
    · rw [p4 (by omega), hb, Nat.add_sub_cancel]
    · intro v hv
      rw [List.mem_range'_1] at hv
      refine ⟨p3 v hv.1 (by omega) (Or.inr (by omega)), ?_⟩
      unfold vertexAt
      rw [if_neg (by omega), ← List.getElem?_map, outputs_list, List.getElem?_append_left (by simp; omega), List.getElem?_replicate, if_pos (by omega)]
    · intro v hv
      rw [List.mem_range'_1, vertices_length] at hv
      exact chain_lineage n hg v (by omega) (by omega)

theorem outputs_childless (n : LabelNet) (hg : n.given ≠ []) (v : Nat) (hv : lastHidden n < v) : children (vertices n) v = [] := by
  rw [List.eq_nil_iff_forall_not_mem]
  intro c hc
  rw [mem_children] at hc
  have hr := parentsAt_range _ _ _ hc
  rw [vertices_length] at hr
  have hf := (allSound n hg).forward c v hc
  obtain ⟨p1, p2, p3, p4⟩ := parents_at n
  obtain ⟨b1, b2⟩ := base_le n
  by_cases h1 : c ≤ lastHidden n
  · omega
  · rw [p2 c (by omega) (by omega), List.mem_singleton] at hc
    omega

theorem isOut_vertices (n : LabelNet) (hg : n.given ≠ []) (v : Nat) (h : isOut (vertices n) v = true) : lastHidden n < v := by
  rw [isOut_output _ (allSound n hg)] at h
  cases hx : vertexAt (vertices n) v with
  | none => rw [hx] at h; cases h
  | some x =>
    have hr := vertexAt_range _ _ _ hx
    have : v ∈ outputsOf (vertices n) := by
      unfold outputsOf
      rw [List.mem_filter, List.mem_range'_1]
      exact ⟨by omega, h⟩
    rw [outputsOf_vertices, List.mem_range'_1] at this
    omega

theorem rooted_vertices (n : LabelNet) (hg : n.given ≠ []) : Rooted (vertices n) := by
  intro v x hx hp
  have hr := vertexAt_range _ _ _ hx
  rw [vertices_length] at hr
  obtain ⟨p1, p2, p3, p4⟩ := parents_at n
  have hpa : parentsAt (vertices n) v = [] := by unfold parentsAt; rw [hx]; exact hp
  have hpos := List.length_pos_iff.2 hg
  have hle : v ≤ n.given.length := by
    by_contra hgt
    have hb : base n ≤ v ∨ v < base n := by omega
    rcases Nat.lt_trichotomy v (base n) with h | h | h
    · unfold base at h
      split at h <;> omega
    · have h1 : 1 < n.given.length := by
        unfold base at h
        split at h <;> omega
      have := p4 h1
      rw [← h, hpa] at this
      have := congrArg List.length this
      simp at this
      omega
    · have := (chain_lineage n hg v h (by omega)).1
      rw [hpa] at this
      cases this
  have hh : v ∈ heads (vertices n) := by
    rw [heads_vertices n hg, List.mem_range'_1]
    omega
  obtain ⟨y, hy, ha⟩ := (mem_heads _ _).1 hh
  rw [hx] at hy
  cases hy
  exact ha

/-! ### Predictions -/

/-- The tensors of a record for the inputs of the network. -/
noncomputable def column (ts : List (Tensor ℝ)) (v : Nat) : Tensor ℝ := ts.getD (v - 1) ⟨0, 0, 0, fun _ _ _ => 0⟩

theorem map_column (ts : List (Tensor ℝ)) : (List.range' 1 ts.length).map (column ts) = ts := by
  apply List.ext_getElem
  · simp
  · intro i h1 h2
    simp [column, h2]

theorem vertexAt_mid (n : LabelNet) (v : Nat) (x : Vertex × List Nat) (h : vertexAt (hiddenVs n) v = some x) : vertexAt (vertices n) v = some x :=
  vertexAt_left _ _ _ _ h

theorem vertexAt_out (n : LabelNet) (i : Nat) (hi : i < n.expected.length) :
    vertexAt (vertices n) (lastHidden n + 1 + i) = some (outV n n.expected[i], [lastHidden n]) := by
  unfold vertexAt vertices
  rw [if_neg (by omega), List.getElem?_append_right (by rw [hiddenVs_length]; omega), hiddenVs_length,
    show lastHidden n + 1 + i - 1 - lastHidden n = i by omega, List.getElem?_map, List.getElem?_eq_getElem hi]
  rfl

/-- Inputs have the shapes of the columns. -/
theorem input_shapes (n : LabelNet) (hg : n.given ≠ []) (v : Nat) (x : Vertex × List Nat) (hx : vertexAt (vertices n) v = some x) (ha : x.1.accepts = true) :
    ∃ i, ∃ h : i < n.given.length, v = i + 1 ∧ x.1.inShapes = [n.given[i]] := by
  have hh : v ∈ heads (vertices n) := (mem_heads _ _).2 ⟨x, hx, ha⟩
  rw [heads_vertices n hg, List.mem_range'_1] at hh
  refine ⟨v - 1, by omega, by omega, ?_⟩
  have hpos := List.length_pos_iff.2 hg
  have hup : vertexAt (upToFirst n) v = some x := by
    obtain ⟨y, hy⟩ := vertexAt_of_le (upToFirst n) v (by omega) (by rw [upToFirst_length]; unfold first; split <;> omega)
    have : vertexAt (vertices n) v = some y := by
      unfold vertices hiddenVs
      iterate 5 apply vertexAt_left
      exact hy
    rw [hx] at this
    cases this
    exact hy
  unfold upToFirst before at hup
  by_cases h1 : n.given.length ≤ 1
  · have hl : n.given.length = 1 := by omega
    obtain ⟨g, hg'⟩ := List.length_eq_one_iff.1 hl
    have hv : v = 1 := by omega
    subst hv
    rw [if_pos h1, vertexAt_last [] _ 1 rfl] at hup
    cases hup
    simp only [hg', Nat.sub_self, List.getElem_cons_zero]
    unfold firstV
    rw [hg']
    simp only
    split <;> rfl
  · rw [if_neg h1] at hup
    obtain ⟨y, hy⟩ := vertexAt_of_le (n.given.map fun s => (flatV s, ([] : List Nat))) v (by omega) (by rw [List.length_map]; omega)
    rw [vertexAt_left _ _ _ _ (vertexAt_left _ _ _ _ hy)] at hup
    cases hup
    unfold vertexAt at hy
    rw [if_neg (by omega), List.getElem?_map, List.getElem?_eq_getElem (by omega)] at hy
    cases hy
    rfl

/-- What a prediction computes, vertex by vertex; `none` is an exception. -/
def Computes (d : Dsl) (p : Nat → Params) (ts : List (Tensor ℝ)) (val : Nat → Option (Tensor ℝ)) : Prop :=
  ∀ v x, vertexAt d v = some x → val v = vertexLayer d p v (if x.1.accepts then [some (column ts v)] else x.2.map val)

theorem eval (d : Dsl) (hs : AllSound d) (hr : Rooted d) (hord : (Forest d ∧ DepthFirst d) ∨ ∃ c, Joined d c) (hc : ∀ v ∈ outputsOf d, children d v = [])
    (p : Nat → Params) (ts : List (Tensor ℝ)) :
    ∃ (w : Wires) (val : Nat → Option (Tensor ℝ)), w.seen.Nodup ∧ (∀ v, v ∈ w.seen ↔ 1 ≤ v ∧ v ≤ d.length) ∧
      w.conns.Perm (w.seen.flatMap fun v => (children d v).map fun c => (v, c)) ∧
      Graph.IsValue w.conns (vertexLayer d p) (heads d) (fun v => some (column ts v)) val ∧ Computes d p ts val ∧
      predict d p ((heads d).map (column ts)) = some ((outputsOf d).map fun v => some (val v)) := by
  have hd := hs.forward
  obtain ⟨w, hw, hn, hseen, houts, hp⟩ := wires_ok d hd hr
  obtain ⟨wf, hnode, hedge⟩ := wellFormed d hs hr w hn hseen hp
  obtain ⟨val, hval⟩ := Graph.value_exists w.conns (vertexLayer d p) (heads d) (fun v => some (column ts v)) id d.length wf.ranked
  have hsrc := ordered_sources _ hs hr hord w hw
  have houts' := ordered_outs _ hs hr hord w hw
  refine ⟨w, val, hn, hseen, hp, hval, ?_, ?_⟩
  · intro v x hx
    rw [hval v]
    congr 1
    unfold Graph.args
    by_cases ha : x.1.accepts = true
    · rw [if_pos ha, if_pos ((mem_heads _ v).2 ⟨x, hx, ha⟩)]
    · have hh : v ∉ heads d := by
        intro hm
        obtain ⟨y, hy, hya⟩ := (mem_heads _ v).1 hm
        rw [hx] at hy
        cases hy
        exact ha hya
      rw [if_neg ha, if_neg hh, show (fun e => val (Graph.src w.conns e)) = val ∘ Graph.src w.conns from rfl, ← List.map_map, hsrc v]
      have hps : parentsAt d v = x.2 := by unfold parentsAt; rw [hx]; rfl
      rw [← hps]
  · obtain ⟨s', hpred, _⟩ := Graph.C55_predict w.conns (vertexLayer d p) (heads d) w.outs id d.length wf (by
      intro o ho
      rw [houts'] at ho
      have hr : 1 ≤ o ∧ o ≤ d.length := by
        unfold outputsOf at ho
        rw [List.mem_filter, List.mem_range'_1] at ho
        omega
      refine ⟨hnode o hr.1 hr.2, ?_⟩
      intro e he hsrc
      have := (mem_children d _ _).2 (hedge e he)
      rw [hsrc, hc o ho] at this
      cases this) (d.length + 1) (by omega) (fun v => some (column ts v)) val hval ⟨fun _ => none, fun _ => none, []⟩ (fun _ _ => rfl)
    unfold Wiring.predict
    rw [hw, Option.bind_some, List.map_map]
    rw [show (some ∘ column ts) = (fun v => some (column ts v)) from rfl, hpred, Option.map_some, houts']

/-- What the network of a label task computes, vertex by vertex. -/
theorem predict_eval (n : LabelNet) (hg : n.given ≠ []) (p : Nat → Params) (ts : List (Tensor ℝ)) (hts : ts.length = n.given.length) :
    ∃ (w : Wires) (val : Nat → Option (Tensor ℝ)), w.seen.Nodup ∧ (∀ v, v ∈ w.seen ↔ 1 ≤ v ∧ v ≤ (vertices n).length) ∧
      w.conns.Perm (w.seen.flatMap fun v => (children (vertices n) v).map fun c => (v, c)) ∧
      Graph.IsValue w.conns (vertexLayer (vertices n) p) (heads (vertices n)) (fun v => some (column ts v)) val ∧ Computes (vertices n) p ts val ∧
      predict (vertices n) p ts = some ((List.range n.expected.length).map fun i => some (val (lastHidden n + 1 + i))) := by
  obtain ⟨w, val, h1, h2, h3, h4, h5, h6⟩ := eval (vertices n) (allSound n hg) (rooted_vertices n hg) (ordered n hg) (by
    intro v hv
    rw [outputsOf_vertices, List.mem_range'_1] at hv
    exact outputs_childless n hg v (by omega)) p ts
  refine ⟨w, val, h1, h2, h3, h4, h5, ?_⟩
  rw [heads_vertices n hg, ← hts, map_column, outputsOf_vertices] at h6
  rw [h6, List.range'_eq_map_range, List.map_map]
  rfl

/-- A full output layer with bias, on a single row. -/
theorem output_layer (n : LabelNet) (q : Params) (s : Shape) (t : Tensor ℝ) (ht : HasShape t (lastShape n)) (hw : (lastShape n).cols < 2 ^ 64) :
    (∀ _ : s.rows = 1 ∧ s.chans = 1 ∧ s.cols < 2 ^ 64, ∃ z, ((parts q (outV n s)).bind fun l => chain l [t]) = some z ∧ HasShape z s) ∧
      (¬ (s.rows = 1 ∧ s.chans = 1) → ((parts q (outV n s)).bind fun l => chain l [t]) = none) := by
  have hls : (lastShape n).rows = 1 ∧ (lastShape n).chans = 1 := by unfold lastShape; split <;> exact ⟨rfl, rfl⟩
  obtain ⟨t1, t2, t3⟩ := ht
  rw [hls.1] at t1
  rw [hls.2] at t3
  have hwr : wrapped (lastShape n) = (lastShape n).cols := by
    unfold wrapped
    rw [hls.1, hls.2, Nat.one_mul, Nat.mul_one]
    exact wrap_of_lt _ hw
  have hparts : parts q (outV n s) = some
      [.full ⟨⟨wrapped (lastShape n), wrapped s, 1, fun r c _ => q.weight r c⟩, 0, none, [], []⟩, .bias ⟨⟨s.rows, s.cols, s.chans, q.bias⟩, 0, []⟩,
        .activation (lastAct n)] := by
    simp [parts, mainParts, outV, plainV, flattenFirst, hls.1, Vertex.weighted]
  rw [hparts, Option.bind_some]
  obtain ⟨y, hy, hys⟩ : ∃ y, Part.forward (.full ⟨⟨wrapped (lastShape n), wrapped s, 1, fun r c _ => q.weight r c⟩, 0, none, [], []⟩) [t] = some y ∧
      y.rows = 1 ∧ y.cols = wrapped s ∧ y.chans = 1 := by
    have hm : matmul t ⟨wrapped (lastShape n), wrapped s, 1, fun r c _ => q.weight r c⟩ =
        some ⟨t.rows, wrapped s, t.chans, fun r c k => sumLoop t.cols fun j => t.get r j k * q.weight j c⟩ := by
      unfold matmul
      rw [if_neg (by simp only; rw [hwr, t2]; simp), if_neg (by simp only; rw [t3]; simp)]
    refine ⟨⟨t.rows, wrapped s, t.chans, fun r c k => sumLoop t.cols fun j => t.get r j k * q.weight j c⟩, ?_, t1, rfl, t3⟩
    show ((matmul t _).map _).map _ = _
    rw [hm]; rfl
  have hch : chain [.full ⟨⟨wrapped (lastShape n), wrapped s, 1, fun r c _ => q.weight r c⟩, 0, none, [], []⟩, .bias ⟨⟨s.rows, s.cols, s.chans, q.bias⟩, 0, []⟩,
        .activation (lastAct n)] [t] = ((Part.forward (.bias ⟨⟨s.rows, s.cols, s.chans, q.bias⟩, 0, []⟩) [y]).bind fun z => Part.forward (.activation (lastAct n)) [z]) := by
    simp only [chain, hy, Option.bind_some]
  rw [hch]
  constructor
  · rintro ⟨s1, s2, s3⟩
    have hws : wrapped s = s.cols := by
      unfold wrapped
      rw [s1, s2, Nat.one_mul, Nat.mul_one]
      exact wrap_of_lt _ s3
    have hb : Part.forward (.bias ⟨⟨s.rows, s.cols, s.chans, q.bias⟩, 0, []⟩) [y] =
        some ⟨y.rows, y.cols, y.chans, fun r c k => y.get r c k + q.bias r c k⟩ := by
      simp only [Part.forward, Bias.forward, add, zip]
      rw [if_neg (by rw [hys.1, hys.2.1, hys.2.2, hws, s1, s2]; simp)]
    rw [hb, Option.bind_some]
    refine ⟨_, rfl, activated_shape _ _ s ⟨?_, ?_, ?_⟩⟩
    · rw [s1]; exact hys.1
    · rw [← hws]; exact hys.2.1
    · rw [s2]; exact hys.2.2
  · intro hne
    have hb : Part.forward (.bias ⟨⟨s.rows, s.cols, s.chans, q.bias⟩, 0, []⟩) [y] = none := by
      simp only [Part.forward, Bias.forward, add, zip]
      rw [if_pos]
      rw [hys.1, hys.2.2]
      by_contra hc
      simp only [not_or, ne_eq, not_not] at hc
      exact hne ⟨by omega, by omega⟩
    rw [hb]
    rfl

/-- What happens to an expected column: a tensor of its shape is predicted if it is a single row with a single channel, otherwise an exception is thrown. -/
def Predicted (r : Option (Option (Tensor ℝ))) (s : Shape) : Prop :=
  if s.rows = 1 ∧ s.chans = 1 then ∃ t, r = some (some t) ∧ HasShape t s else r = some none

/-- The values of the vertices, and the shape of what the outputs are computed from. -/
theorem last_hidden (n : LabelNet) (h : Acceptable n) (hz : Sized n) (p : Nat → Params) (ts : List (Tensor ℝ)) (hts : List.Forall₂ HasShape ts n.given) :
    ∃ val t, Computes (vertices n) p ts val ∧ val (lastHidden n) = some t ∧ HasShape t (lastShape n) ∧
      predict (vertices n) p ts = some ((List.range n.expected.length).map fun i => some (val (lastHidden n + 1 + i))) := by
  have hg : n.given ≠ [] := by
    intro h0
    have := h.2
    rw [h0] at this
    exact this
  obtain ⟨w, val, w1, w2, w3, w4, w5, w6⟩ := predict_eval n hg p ts hts.length_eq
  obtain ⟨hf, y, hy, hys, hyf⟩ := hidden_fits n h hz
  have hlen := hiddenVs_length n
  have hsame : ∀ v, v ≤ lastHidden n → vertexAt (vertices n) v = vertexAt (hiddenVs n) v := by
    intro v hv
    unfold vertices vertexAt
    split
    · rfl
    · rw [List.getElem?_append_left (by omega)]
  have hvals := values_shape (vertices n) (allSound n hg) w w1 w2 w3 p (column ts) val w4 (lastHidden n) (by
    intro v x _ hx ha s hs
    obtain ⟨i, hi, rfl, e⟩ := input_shapes n hg v x hx ha
    rw [e, List.mem_singleton] at hs
    subst hs
    have := (List.forall₂_iff_get.1 hts).2 i (by rw [hts.length_eq]; exact hi) hi
    simp only [column, Nat.add_sub_cancel]
    rw [List.getD_eq_getElem?_getD, List.getElem?_eq_getElem (by rw [hts.length_eq]; exact hi), Option.getD_some]
    exact this) (by
    intro v x hv hx
    have hx' := hx
    rw [hsame v hv] at hx'
    obtain ⟨a1, a2, a3⟩ := hf x (vertexAt_mem _ _ _ hx')
    refine ⟨a1, fun hne => outShapes_left _ _ _ _ (a2 hne), ?_⟩
    intro q hq hfl
    apply a3 q hq
    obtain ⟨z, hz'⟩ := outShapes_some _ _ _ (a2 (List.ne_nil_of_mem hq)) q hq
    rw [hz']
    unfold vertices at hfl
    rw [vertexAt_left _ _ _ _ hz'] at hfl
    exact hfl)
  obtain ⟨t, ht, hts'⟩ := hvals (lastHidden n) y le_rfl (vertexAt_mid n _ _ hy)
  rw [show delivered y.1 = lastShape n by unfold delivered; rw [if_neg hyf, hys]] at hts'
  exact ⟨val, t, w5, ht, hts', w6⟩

theorem lastShape_lt (n : LabelNet) (h : Acceptable n) (hz : Sized n) : (lastShape n).cols < 2 ^ 64 := by
  unfold lastShape
  split
  · rw [widthExpected_one]; exact hz.1
  · exact secondWidth_lt n h hz

/-- An output, from the value of the last hidden layer. -/
theorem output_value (n : LabelNet) (p : Nat → Params) (ts : List (Tensor ℝ)) (val : Nat → Option (Tensor ℝ)) (hv : Computes (vertices n) p ts val) (t : Tensor ℝ)
    (ht : val (lastHidden n) = some t) (i : Nat) (hi : i < n.expected.length) :
    val (lastHidden n + 1 + i) = (parts (p (lastHidden n + 1 + i)) (outV n n.expected[i])).bind fun l => chain l [t] := by
  rw [hv _ _ (vertexAt_out n i hi)]
  unfold vertexLayer
  rw [vertexAt_out n i hi, Option.bind_some]
  simp only [show (outV n n.expected[i]).accepts = false from rfl, Bool.false_eq_true, if_false, List.map_cons, List.map_nil, ht]
  rfl

/-- C109: every record whose given tensors have the shapes of the columns is taken, and what is predicted for the expected columns, in order, is `Predicted`.
Missing: columns of shapes that are not `Acceptable` (see `C109_channels_violated`); and for expected columns with several rows or channels the network throws an
exception. -/
theorem C109_partial (n : LabelNet) (h : Acceptable n) (hz : Sized n) (p : Nat → Params) (ts : List (Tensor ℝ)) (hts : List.Forall₂ HasShape ts n.given) :
    ∃ ops d rs val, labelOps n = some ops ∧ run ops = some d ∧ predict d p ts = some rs ∧ List.Forall₂ Predicted rs n.expected ∧ Computes d p ts val ∧
      rs = (outputsOf d).map fun v => some (val v) := by
  have hg : n.given ≠ [] := by
    intro h0
    have := h.2
    rw [h0] at this
    exact this
  obtain ⟨ops, h1, h2⟩ := labelOps_ok n hg
  obtain ⟨val, t, w5, ht, hts', w6⟩ := last_hidden n h hz p ts hts
  refine ⟨ops, vertices n, _, val, h1, h2, w6, ?_, w5, ?_⟩
  · rw [List.forall₂_iff_get]
    refine ⟨by simp, ?_⟩
    intro i hi1 hi2
    have hi : i < n.expected.length := hi2
    simp only [List.get_eq_getElem, List.getElem_map, List.getElem_range]
    have hv := output_value n p ts val w5 t ht i hi
    obtain ⟨o1, o2⟩ := output_layer n (p (lastHidden n + 1 + i)) n.expected[i] t hts' (lastShape_lt n h hz)
    unfold Predicted
    split
    · rename_i hsh
      have hlt : (n.expected[i]).cols < 2 ^ 64 := by
        have := le_total n.expected n.expected[i] (List.getElem_mem hi)
        rw [hsh.1, hsh.2, Nat.one_mul, Nat.mul_one] at this
        exact lt_of_le_of_lt this hz.1
      obtain ⟨z, z1, z2⟩ := o1 ⟨hsh.1, hsh.2, hlt⟩
      exact ⟨z, by rw [hv, z1], z2⟩
    · rename_i hsh
      rw [hv, o2 hsh]
  · rw [outputsOf_vertices, List.range'_eq_map_range, List.map_map]
    rfl

/-- An exception in the first layer, for a single given column, is an exception for every output. -/
theorem first_throws (n : LabelNet) (hg : n.given ≠ []) (hl : n.given.length = 1) (p : Nat → Params) (ts : List (Tensor ℝ)) (val : Nat → Option (Tensor ℝ))
    (w5 : Computes (vertices n) p ts val) (hv1 : val 1 = none) :
    ((List.range n.expected.length).map fun i => some (val (lastHidden n + 1 + i))) = List.replicate n.expected.length (some none) := by
  have hnone : ∀ v x, vertexAt (vertices n) v = some x → x.1.accepts = false → ∀ q, x.2 = [q] → val q = none → val v = none := by
    intro v x hx ha q hq hvq
    rw [w5 v x hx]
    unfold vertexLayer
    rw [hx, Option.bind_some, ha, hq]
    simp only [Bool.false_eq_true, if_false, List.map_cons, List.map_nil, hvq]
    cases parts (p v) x.1 <;> rfl
  have hacc : ∀ v x, vertexAt (vertices n) v = some x → 1 < v → x.1.accepts = false := by
    intro v x hx hv
    cases ha : x.1.accepts with
    | false => rfl
    | true =>
      have : v ∈ heads (vertices n) := (mem_heads _ _).2 ⟨x, hx, ha⟩
      rw [heads_vertices n hg, List.mem_range'_1, hl] at this
      omega
  obtain ⟨p1, p2, _, _⟩ := parents_at n
  have hb : base n = 1 := by unfold base; rw [if_pos (by omega)]
  have hchain : ∀ v, 1 ≤ v → v ≤ lastHidden n → val v = none := by
    intro v hv
    induction v, hv using Nat.le_induction with
    | base => intro _; exact hv1
    | succ v hv ih =>
      intro hle
      obtain ⟨x, hx⟩ := vertexAt_of_le (vertices n) (v + 1) (by omega) (by rw [vertices_length]; omega)
      refine hnone (v + 1) x hx (hacc _ x hx (by omega)) v ?_ (ih (by omega))
      have := p1 (v + 1) (by omega) hle
      unfold parentsAt at this
      rw [hx] at this
      simpa using this
  rw [List.eq_replicate_iff]
  refine ⟨by simp, ?_⟩
  intro r hr
  rw [List.mem_map] at hr
  obtain ⟨i, hi, rfl⟩ := hr
  rw [List.mem_range] at hi
  rw [hnone _ _ (vertexAt_out n i hi) rfl _ rfl (hchain (lastHidden n) (by have := (base_le n).2; omega) le_rfl)]

/-- C109 fails for a given column with a single row and several channels: every prediction throws an exception. -/
theorem C109_channels_violated (n : LabelNet) (c k : Nat) (hn : n.given = [⟨1, c, k⟩]) (hi : n.image = false) (hc : 0 < c) (hk : 1 < k) (hs : c * k < 2 ^ 64)
    (p : Nat → Params) (t : Tensor ℝ) (ht : HasShape t ⟨1, c, k⟩) :
    ∃ ops d, labelOps n = some ops ∧ run ops = some d ∧ predict d p [t] = some (List.replicate n.expected.length (some none)) := by
  have hg : n.given ≠ [] := by rw [hn]; simp
  have hl : n.given.length = 1 := by rw [hn]; rfl
  obtain ⟨ops, h1, h2⟩ := labelOps_ok n hg
  obtain ⟨w, val, _, _, _, _, w5, w6⟩ := predict_eval n hg p [t] (by rw [hl]; rfl)
  refine ⟨ops, vertices n, h1, h2, ?_⟩
  have hfirst : vertexAt (vertices n) 1 = some (firstV n, []) := by
    unfold vertices hiddenVs
    iterate 5 apply vertexAt_left
    unfold upToFirst before firstParents
    rw [if_pos (by omega), if_pos (by omega)]
    rfl
  have hv1 : val 1 = none := by
    rw [w5 _ _ hfirst]
    unfold vertexLayer
    rw [hfirst, Option.bind_some]
    have hfv : firstV n = tuned n { plainV .full ⟨1, c, k⟩ ⟨1, widthGiven n, 1⟩ false true n.act with bias := true } := by
      unfold firstV
      rw [hn]
      simp [hi]
    rw [hfv]
    obtain ⟨t1, t2, t3⟩ := ht
    have hm : matmul t ⟨wrapped ⟨1, c, k⟩, wrapped ⟨1, widthGiven n, 1⟩, 1, fun r c _ => (p 1).weight r c⟩ = none := by
      unfold matmul
      rw [if_pos]
      simp only [wrapped, Nat.one_mul]
      rw [wrap_of_lt _ hs, t2]
      simp only
      intro he
      have : c * 1 < c * k := Nat.mul_lt_mul_of_pos_left hk hc
      omega
    have hf : Part.forward (.full ⟨⟨wrapped ⟨1, c, k⟩, wrapped ⟨1, widthGiven n, 1⟩, 1, fun r c _ => (p 1).weight r c⟩, 0, none, [], []⟩) [t] = none := by
      show ((matmul t _).map _).map _ = _
      rw [hm]; rfl
    have hcol : column [t] 1 = t := rfl
    simp only [parts, mainParts, tuned, plainV, flattenFirst, Vertex.weighted, hcol, List.head?_cons, Option.map_some, Option.bind_some]
    simp [chain, hf]
  rw [w6, first_throws n hg hl p [t] val w5 hv1]

/-- The hypotheses of `C109_partial` for an image, and for two given columns with two expected ones. -/
example : Acceptable (labelNet [⟨28, 28, 1⟩] [⟨1, 10, 1⟩] true .other 1) ∧ Sized (labelNet [⟨28, 28, 1⟩] [⟨1, 10, 1⟩] true .other 1) ∧
    Acceptable (labelNet [⟨1, 3, 1⟩, ⟨4, 5, 2⟩] [⟨1, 1, 1⟩, ⟨1, 4, 1⟩] false .speed (5 / 4)) ∧
    Sized (labelNet [⟨1, 3, 1⟩, ⟨4, 5, 2⟩] [⟨1, 1, 1⟩, ⟨1, 4, 1⟩] false .speed (5 / 4)) := by
  refine ⟨⟨by decide, ?_⟩, ⟨by decide, ?_⟩, ⟨by decide, ?_⟩, ⟨by decide, ?_⟩⟩
  · simp [labelNet]
  · simp [widthExpected, labelNet, total]
  · simp [labelNet]
  · refine lt_of_le_of_lt (b := 100) ?_ (by norm_num)
    unfold widthExpected
    apply Nat.floor_le_of_le
    norm_num [labelNet, total]

end Verif.LabelNetwork
