import Verif.Lemmas.WiringOrder
import Verif.Props.C106_Shapes

/-!
C107: a prediction takes the inputs and delivers the outputs in the order in which they were described. C108: a concatenation joins its inputs in the order in
which they were listed, and its error reaches each of them as the part that belongs to it.
-/

namespace Verif.Wiring
open Verif Verif.Dsl Verif.Enums Verif.Views Verif.Layers

/-- The vertices described as outputs, in the order of their description. -/
def outputsOf (d : Dsl) : List Nat := (List.range' 1 d.length).filter fun v => ((vertexAt d v).map fun x => x.1.output).getD false

/-- What the description says about the results: every input layer works on its input, every other one on the results of those it was made from, in the order
in which they were listed. -/
def Means (d : Dsl) (p : Nat → Params) (given val : Nat → Tensor ℝ) : Prop :=
  ∀ v x, vertexAt d v = some x →
    vertexLayer d p v (if x.1.accepts then [some (given v)] else x.2.map fun q => some (val q)) = some (val v)

/-- The first vertices are inputs and no outputs, `c` joins all of them, and the rest is a depth-first tree below `c`; this is how networks with several inputs
are made with `add_concatenated_input_layer`. -/
def Joined (d : Dsl) (c : Nat) : Prop :=
  2 ≤ c ∧ c ≤ d.length ∧ parentsAt d c = List.range' 1 (c - 1) ∧
    (∀ v ∈ List.range' 1 (c - 1), parentsAt d v = [] ∧ ((vertexAt d v).map fun x => x.1.output) = some false) ∧
    ∀ v ∈ List.range' (c + 1) (d.length - c), (parentsAt d v).length = 1 ∧ c ≤ addedTo d v ∧ addedTo d v ∈ lineage d (v - 1)

instance (d : Dsl) (c : Nat) : Decidable (Joined d c) := by unfold Joined; infer_instance

theorem isOut_output (d : Dsl) (hs : AllSound d) (v : Nat) : isOut d v = ((vertexAt d v).map fun x => x.1.output).getD false := by
  unfold isOut
  cases hv : vertexAt d v with
  | none => rfl
  | some x =>
    obtain ⟨x, ps⟩ := x
    simp only [Option.map_some, Option.getD_some]
    unfold givesOutput Vertex.weighted
    cases ho : x.output with
    | false => simp
    | true =>
      rw [Bool.and_true]
      rcases (hs v x ps hv).2 with ⟨_, _, _, _, ⟨_, _, h⟩ | ⟨_, h, _⟩⟩ | ⟨_, _, _, _, _, _, _, _, _, ⟨_, _, h⟩ | ⟨_, h, _⟩⟩ | ⟨_, _, h, _⟩
      · simp [h ho]
      · simp [h]
      · simp [h ho]
      · simp [h]
      · rw [h] at ho; cases ho

theorem outputsOf_eq (d : Dsl) (hs : AllSound d) : outputsOf d = (List.range' 1 d.length).filter (isOut d) := by
  unfold outputsOf
  apply List.filter_congr
  intro v _
  rw [isOut_output d hs]

/-! ### Joined inputs -/

/-- The description without the edges into the first `c` vertices. -/
def cut (c : Nat) (d : Dsl) : Dsl := (d.take c).map (fun x => ({ x.1 with accepts := true }, [])) ++ d.drop c

theorem cut_length (c : Nat) (d : Dsl) : (cut c d).length = d.length := by
  unfold cut
  rw [List.length_append, List.length_map, List.length_take, List.length_drop]
  omega

theorem parentsAt_cut (c : Nat) (d : Dsl) (v : Nat) : parentsAt (cut c d) v = if v ≤ c then [] else parentsAt d v := by
  unfold parentsAt vertexAt
  by_cases h0 : v = 0
  · simp [h0]
  · rw [if_neg h0, if_neg h0]
    unfold cut
    by_cases hv : v ≤ c
    · rw [if_pos hv]
      by_cases hl : v ≤ d.length
      · rw [List.getElem?_append_left (by rw [List.length_map, List.length_take]; omega), List.getElem?_map, List.getElem?_take_of_lt (by omega),
          List.getElem?_eq_getElem (by omega)]
        rfl
      · rw [List.getElem?_eq_none]
        · rfl
        · rw [List.length_append, List.length_map, List.length_take, List.length_drop]; omega
    · rw [if_neg hv]
      by_cases hl : v ≤ d.length
      · rw [List.getElem?_append_right (by rw [List.length_map, List.length_take]; omega), List.length_map, List.length_take, List.getElem?_drop]
        rw [show c + (v - 1 - min c d.length) = v - 1 by omega]
      · rw [List.getElem?_eq_none, List.getElem?_eq_none]
        · omega
        · rw [List.length_append, List.length_map, List.length_take, List.length_drop]; omega

theorem children_eq (d e : Dsl) (v : Nat) (hd : ∀ c, (parentsAt d c).Nodup) (he : ∀ c, (parentsAt e c).Nodup)
    (h : ∀ c, v ∈ parentsAt d c ↔ v ∈ parentsAt e c) : children d v = children e v := by
  have h1 := children_sorted d v hd
  have h2 := children_sorted e v he
  apply List.Perm.eq_of_pairwise (le := (· < ·)) _ h1 h2
  · rw [List.perm_ext_iff_of_nodup (h1.imp fun h => by omega) (h2.imp fun h => by omega)]
    intro c
    rw [mem_children, mem_children, h]
  · intro a b _ _ h h'; omega

/-- The order in which joined inputs are built. -/
theorem joined_order (d : Dsl) (hs : AllSound d) (hr : Rooted d) (c : Nat) (hj : Joined d c) (w : Wires) (hw : wires d = some w) :
    ∃ rest, w.seen = 1 :: (List.range' c (d.length + 1 - c) ++ rest) := by
  obtain ⟨hc2, hcn, hpc, hin, hout⟩ := hj
  have hd := hs.forward
  have hinp : ∀ v, 1 ≤ v → v < c → parentsAt d v = [] := fun v h1 h2 => (hin v (List.mem_range'_1.2 (by omega))).1
  have hone : ∀ v, c < v → v ≤ d.length → parentsAt d v = [addedTo d v] ∧ c ≤ addedTo d v ∧ addedTo d v ∈ lineage d (v - 1) := by
    intro v h1 h2
    obtain ⟨a, b, e⟩ := hout v (List.mem_range'_1.2 (by omega))
    refine ⟨?_, b, e⟩
    obtain ⟨q, hq⟩ := List.length_eq_one_iff.1 a
    unfold addedTo
    rw [hq]; rfl
  have hpar : ∀ v p, p ∈ parentsAt d v → (v = c ∧ p < c) ∨ (c < v ∧ c ≤ p ∧ parentsAt d v = [p]) := by
    intro v p hp
    have hv := parentsAt_range d v p hp
    rcases Nat.lt_trichotomy v c with h | h | h
    · rw [hinp v hv.1 h] at hp; cases hp
    · subst h; exact Or.inl ⟨rfl, (hd v p hp).2⟩
    · obtain ⟨a, b, _⟩ := hone v h hv.2
      rw [a, List.mem_singleton] at hp
      subst hp
      exact Or.inr ⟨h, b, a⟩
  have hnd : ∀ v, (parentsAt d v).Nodup := by
    intro v
    cases hl : parentsAt d v with
    | nil => exact List.nodup_nil
    | cons p l =>
      rcases hpar v p (by rw [hl]; simp) with ⟨rfl, _⟩ | ⟨_, _, h⟩
      · rw [← hl, hpc]; exact List.nodup_range'
      · rw [hl] at h; rw [h]; simp
  -- the tree below `c`
  have hfw : Forward (cut c d) := by
    intro v p hp
    rw [parentsAt_cut] at hp
    split at hp
    · cases hp
    · exact hd v p hp
  have hfo : Forest (cut c d) := by
    intro x hx
    unfold cut at hx
    rcases List.mem_append.1 hx with hx | hx
    · rw [List.mem_map] at hx
      obtain ⟨y, _, rfl⟩ := hx
      simp
    · obtain ⟨i, hi, he⟩ := List.mem_drop_iff_getElem.1 hx
      have hv : parentsAt d (c + i + 1) = x.2 := by
        unfold parentsAt vertexAt
        rw [if_neg (by omega), show c + i + 1 - 1 = c + i by omega, List.getElem?_eq_getElem (by omega)]
        simp only [Option.map_some, Option.getD_some]
        rw [← he]
      rw [← hv, (hone (c + i + 1) (by omega) (by omega)).1]
      simp
  have hadd : ∀ v, addedTo (cut c d) v = if v ≤ c then 0 else addedTo d v := by
    intro v
    unfold addedTo
    rw [parentsAt_cut]
    split <;> rfl
  have hlin : ∀ v, v ≤ d.length → ∀ q, c ≤ q → q ∈ lineage d v → q ∈ lineage (cut c d) v := by
    intro v
    induction v using Nat.strong_induction_on with
    | _ v ih =>
      intro hvn q hq hm
      have hle := lineage_le d hd v q hm
      rw [lineage_step d hd v (by omega), List.mem_cons] at hm
      rcases hm with rfl | hm
      · exact lineage_self _ hfw q
      · rw [lineage_step _ hfw v (by omega), hadd]
        have hlt := addedTo_lt d hd v (by omega)
        have h1 := lineage_le d hd _ q hm
        rw [if_neg (by omega)]
        exact List.mem_cons_of_mem _ (ih _ hlt (by omega) q hq hm)
  have hdf : DepthFirst (cut c d) := by
    intro v hv
    rw [cut_length, List.mem_map] at hv
    obtain ⟨i, hi, rfl⟩ := hv
    rw [List.mem_range] at hi
    rw [hadd, parentsAt_cut]
    by_cases hle : i + 1 ≤ c
    · rw [if_pos hle, if_pos hle]
      refine ⟨List.Pairwise.nil, lineage_root _ hfw _, by simp, fun _ => ?_⟩
      unfold vertexAt cut
      rw [if_neg (by omega), show i + 1 - 1 = i by omega, List.getElem?_append_left (by rw [List.length_map, List.length_take]; omega), List.getElem?_map,
        List.getElem?_take_of_lt (by omega), List.getElem?_eq_getElem hi]
      rfl
    · rw [if_neg hle, if_neg hle]
      obtain ⟨a, b, e⟩ := hone (i + 1) (by omega) (by omega)
      refine ⟨by rw [a]; simp, hlin _ (by omega) _ b e, by rw [a]; simp, fun h => ?_⟩
      rw [a] at h; cases h
  have hsame : ∀ v, c ≤ v → children d v = children (cut c d) v := by
    intro v hv
    apply children_eq _ _ _ hnd hfo.nodup
    intro u
    rw [parentsAt_cut]
    split
    · rename_i hu
      constructor
      · intro hm
        rcases hpar u v hm with ⟨_, h⟩ | ⟨h, _⟩
        · omega
        · omega
      · intro hm; cases hm
    · rfl
  -- the first input
  have hchild : children d 1 = [c] := by
    have h1 := children_sorted d 1 hnd
    apply List.Perm.eq_of_pairwise (le := (· < ·)) _ h1 (by simp)
    · rw [List.perm_ext_iff_of_nodup (h1.imp fun h => by omega) (by simp)]
      intro u
      rw [mem_children, List.mem_singleton]
      constructor
      · intro hm
        rcases hpar u 1 hm with ⟨h, _⟩ | ⟨_, h, _⟩
        · exact h
        · omega
      · rintro rfl
        rw [hpc]
        exact List.mem_range'_1.2 (by omega)
    · intro a b _ _ h h'; omega
  have hhead : ∃ hs', heads d = 1 :: hs' := by
    have h1 : 1 ∈ heads d := (heads_added d hs hr 1).2 ⟨Nat.le_refl _, by omega, by unfold addedTo; rw [hinp 1 (Nat.le_refl _) (by omega)]; rfl⟩
    have hsort := heads_sorted d
    cases hl : heads d with
    | nil => rw [hl] at h1; cases h1
    | cons a l =>
      rw [hl] at h1 hsort
      have ha : 1 ≤ a := ((heads_added d hs hr a).1 (by rw [hl]; simp)).1
      rcases List.mem_cons.1 h1 with h | h
      · exact ⟨l, by rw [← h]⟩
      · have := (List.pairwise_cons.1 hsort).1 1 h; omega
  obtain ⟨hs', hhs⟩ := hhead
  unfold wires at hw
  rw [hhs, List.foldlM_cons] at hw
  obtain ⟨x1, hx1⟩ := vertexAt_some d 1 (Nat.le_refl _) (by omega)
  rw [wire_succ d d.length 1 _ x1 hx1 (by simp), hchild, loop_cons] at hw
  obtain ⟨s1, k, e1, e2, e3, e4, e5, e6⟩ := forest_wire (cut c d) d hfw hdf hfo c (by omega) (cut_length c d).symm hsame [1] (by simp; omega) d.length c
    (Nat.le_refl _) (by rw [cut_length]; omega) (by rw [cut_length]; omega)
    ⟨[] ++ [1], [], if givesOutput x1.1 then [] ++ [1] else []⟩ (by unfold Upto; simp; omega)
  have hk : k = d.length := by
    rw [cut_length] at e4 e6
    by_contra hne
    have hlow : ∀ v, c ≤ v → v ≤ d.length → c ∈ lineage (cut c d) v := by
      intro v
      induction v using Nat.strong_induction_on with
      | _ v ih =>
        intro h1 h2
        by_cases hv : v = c
        · subst hv; exact lineage_self _ hfw _
        · have := hone v (by omega) h2
          rw [lineage_step _ hfw v (by omega), hadd, if_neg (by omega)]
          exact List.mem_cons_of_mem _ (ih _ (addedTo_lt d hd v (by omega)) this.2.1 (by have := addedTo_lt d hd v (by omega); omega))
    exact e6 (by omega) (hlow (k + 1) (by omega) (by omega))
  rw [e1, Option.bind_some] at hw
  obtain ⟨s2, l2, f1, f2, _⟩ := heads_loop d hd hs' (by
    intro h hh
    have := (heads_added d hs hr h).1 (by rw [hhs]; exact List.mem_cons_of_mem _ hh)
    omega) { s1 with conns := s1.conns ++ [(1, c)] }
  have hw2 : some s2 = some w := by
    rw [← hw, ← f1]
    rfl
  cases hw2
  refine ⟨l2, ?_⟩
  rw [f2.seen]
  simp only
  unfold Upto at e2
  rw [e2, hk]
  simp

theorem joined_branches (d : Dsl) (hs : AllSound d) (hr : Rooted d) (c : Nat) (hj : Joined d c) : Branches d c := by
  obtain ⟨hc2, hcn, hpc, hin, hout⟩ := hj
  have hinp : ∀ v, 1 ≤ v → v < c → parentsAt d v = [] := fun v h1 h2 => (hin v (List.mem_range'_1.2 (by omega))).1
  have hs' := allSound_take d (c - 1) hs
  have hr' := rooted_take d (c - 1) hr
  have hd' := hs'.forward
  have hp0 : ∀ v, 1 ≤ v → v ≤ c - 1 → parentsAt (d.take (c - 1)) v = [] := by
    intro v h1 h2
    rw [parentsAt_take d _ v h2]
    exact hinp v h1 (by omega)
  have hadd : ∀ v, 1 ≤ v → v ≤ c - 1 → addedTo (d.take (c - 1)) v = 0 := by
    intro v h1 h2
    unfold addedTo
    rw [hp0 v h1 h2]; rfl
  refine ⟨?_, ?_, by rw [hpc]; exact List.pairwise_lt_range' (step := 1) (by omega), ?_⟩
  · intro x hx
    obtain ⟨i, hi, he⟩ := List.getElem_of_mem hx
    have hi' := hi
    rw [List.length_take] at hi'
    have : parentsAt (d.take (c - 1)) (i + 1) = x.2 := by
      unfold parentsAt vertexAt
      rw [if_neg (by omega), show i + 1 - 1 = i by omega, List.getElem?_eq_getElem hi, he]; rfl
    rw [← this, hp0 (i + 1) (by omega) (by omega)]
    simp
  · intro v hv
    rw [List.length_take, List.mem_map] at hv
    obtain ⟨i, hi, rfl⟩ := hv
    rw [List.mem_range] at hi
    rw [hadd (i + 1) (by omega) (by omega), hp0 (i + 1) (by omega) (by omega)]
    refine ⟨List.Pairwise.nil, lineage_root _ hd' _, by simp, fun _ => ?_⟩
    obtain ⟨x, hx⟩ := vertexAt_some (d.take (c - 1)) (i + 1) (by omega) (by rw [List.length_take]; omega)
    have hps : x.2 = [] := by
      have := hp0 (i + 1) (by omega) (by omega)
      unfold parentsAt at this
      rw [hx] at this
      exact this
    rw [hx, Option.map_some, hr' _ x hx hps]
  · intro p hp q hq hne hm
    rw [hpc, List.mem_range'_1] at hp hq
    rw [lineage_step _ hd' q (by omega), hadd q (by omega) (by omega), lineage_zero] at hm
    simp only [List.mem_cons, List.not_mem_nil, or_false] at hm
    omega

/-! ### C107 and C108 -/

/-- If every vertex is connected in the listed order, the network computes what its description says. -/
theorem predict_means (d : Dsl) (hs : AllSound d) (hfit : Fits d) (w : Wires) (hw : wires d = some w)
    (hord : ∀ v, (Graph.inputs w.conns v).map (Graph.src w.conns) = parentsAt d v) (p : Nat → Params) (given : Nat → Tensor ℝ)
    (hgiven : ∀ v x, vertexAt d v = some x → x.1.accepts = true → ∀ i ∈ x.1.inShapes, HasShape (given v) i) :
    ∃ val, Means d p given val ∧ predict d p ((heads d).map given) = some (w.outs.map fun v => some (some (val v))) := by
  obtain ⟨w', val, hw', hval, main, hpred⟩ := predict_values d hs hfit p given hgiven
  rw [hw] at hw'
  cases hw'
  have hsome : ∀ v x, vertexAt d v = some x → val v = some ((val v).getD (given v)) := by
    intro v x hx
    obtain ⟨t, ht, _⟩ := main v x hx
    rw [ht]; rfl
  refine ⟨fun v => (val v).getD (given v), ?_, ?_⟩
  · intro v x hx
    simp only
    rw [← hsome v x hx]
    conv_rhs => rw [hval v]
    congr 1
    unfold Graph.args
    by_cases ha : x.1.accepts = true
    · rw [if_pos ha, if_pos ((mem_heads d v).2 ⟨x, hx, ha⟩)]
    · have hh : v ∉ heads d := by
        intro hm
        obtain ⟨y, hy, hya⟩ := (mem_heads d v).1 hm
        rw [hx] at hy
        cases hy
        exact ha hya
      rw [if_neg ha, if_neg hh, show (fun e => val (Graph.src w.conns e)) = val ∘ Graph.src w.conns from rfl, ← List.map_map, hord v]
      have hps : parentsAt d v = x.2 := by unfold parentsAt; rw [hx]; rfl
      rw [← hps]
      apply List.map_congr_left
      intro q hq
      have h1 := hs.forward v q hq
      have h2 := parentsAt_range d v q hq
      obtain ⟨y, hy⟩ := vertexAt_some d q h1.1 (by omega)
      exact (hsome q y hy).symm
  · rw [hpred]
    congr 1
    apply List.map_congr_left
    intro v hv
    obtain ⟨w', hw', _, hseen, houts, _⟩ := wires_ok d hs.forward (rooted_of_fits d hs hfit)
    rw [hw] at hw'
    cases hw'
    rw [houts, List.mem_filter, hseen] at hv
    obtain ⟨x, hx⟩ := vertexAt_some d v hv.1.1 hv.1.2
    rw [← hsome v x hx]

theorem single_order (d : Dsl) (hs : AllSound d) (hr : Rooted d) (w : Wires) (hw : wires d = some w) (v : Nat) (h : (parentsAt d v).length ≤ 1) :
    (Graph.inputs w.conns v).map (Graph.src w.conns) = parentsAt d v := by
  obtain ⟨w', hw', hn, hseen, _, hp⟩ := wires_ok d hs.forward hr
  rw [hw] at hw'
  cases hw'
  have := sources_perm d hs.forward w hn hseen hp v
  cases hl : parentsAt d v with
  | nil => rw [hl] at this; exact List.perm_nil.1 this
  | cons q l =>
    rw [hl] at this h
    cases l with
    | nil => exact List.perm_singleton.1 this
    | cons _ _ => simp at h

/-- The layers are connected in the listed order. -/
theorem ordered_sources (d : Dsl) (hs : AllSound d) (hr : Rooted d) (hord : (Forest d ∧ DepthFirst d) ∨ ∃ c, Joined d c) (w : Wires) (hw : wires d = some w) :
    ∀ v, (Graph.inputs w.conns v).map (Graph.src w.conns) = parentsAt d v := by
  intro v
  rcases hord with ⟨hfo, _⟩ | ⟨c, hj⟩
  · exact single_order d hs hr w hw v (hfo.at v)
  · by_cases hv : v = c
    · subst hv
      exact branches_order d hs hr v (joined_branches d hs hr v hj) w hw
    · apply single_order d hs hr w hw v
      obtain ⟨_, hcn, _, hin, hout⟩ := hj
      cases hl : parentsAt d v with
      | nil => simp
      | cons q l =>
        have hvr := parentsAt_range d v q (by rw [hl]; simp)
        rcases Nat.lt_or_gt_of_ne hv with h | h
        · rw [← hl, (hin v (List.mem_range'_1.2 (by omega))).1]; simp
        · rw [← hl, (hout v (List.mem_range'_1.2 (by omega))).1]

/-- The outputs of the network are in the order of their description. -/
theorem ordered_outs (d : Dsl) (hs : AllSound d) (hr : Rooted d) (hord : (Forest d ∧ DepthFirst d) ∨ ∃ c, Joined d c) (w : Wires) (hw : wires d = some w) :
    w.outs = outputsOf d := by
  obtain ⟨w', hw', hn, hseen, houts, _⟩ := wires_ok d hs.forward hr
  rw [hw] at hw'
  cases hw'
  rw [houts, outputsOf_eq d hs]
  rcases hord with ⟨hfo, hdf⟩ | ⟨c, hj⟩
  · rw [forest_order d hs hr hdf hfo w hw]
  · obtain ⟨rest, hrest⟩ := joined_order d hs hr c hj w hw
    obtain ⟨hc2, hcn, _, hin, _⟩ := hj
    have hno : ∀ v, 1 ≤ v → v < c → isOut d v = false := by
      intro v h1 h2
      have := (hin v (List.mem_range'_1.2 (by omega))).2
      rw [isOut_output d hs, this]; rfl
    have h1 : (1 :: (List.range' c (d.length + 1 - c) ++ rest)).filter (isOut d) = (List.range' c (d.length + 1 - c)).filter (isOut d) := by
      rw [List.filter_cons, if_neg (by rw [hno 1 (by omega) (by omega)]; simp), List.filter_append]
      have : rest.filter (isOut d) = [] := by
        rw [List.filter_eq_nil_iff]
        intro u hu
        have h1 := (hseen u).1 (by rw [hrest]; simp [hu])
        have h2 : u < c := by
          by_contra hge
          rw [hrest, List.nodup_cons, List.nodup_append] at hn
          exact hn.2.2.2 u (List.mem_range'_1.2 (by omega)) u hu rfl
        rw [hno u h1.1 h2]; simp
      rw [this, List.append_nil]
    have h2 : (List.range' 1 d.length).filter (isOut d) = (List.range' c (d.length + 1 - c)).filter (isOut d) := by
      rw [show List.range' 1 d.length = List.range' 1 (c - 1) ++ List.range' c (d.length + 1 - c) by
        rw [show List.range' c (d.length + 1 - c) = List.range' (1 + 1 * (c - 1)) (d.length + 1 - c) by congr 1; omega, List.range'_append]
        congr 1; omega, List.filter_append]
      have : (List.range' 1 (c - 1)).filter (isOut d) = [] := by
        rw [List.filter_eq_nil_iff]
        intro u hu
        rw [List.mem_range'_1] at hu
        rw [hno u (by omega) (by omega)]; simp
      rw [this, List.nil_append]
    rw [hrest, h1, h2]

/-- C107 for descriptions that are depth-first, with one parent for every layer but inputs, or that join all their inputs first and are depth-first
after that: a prediction computes what the description says, and takes inputs and delivers outputs in the order of their description. Missing: all others, see
`C107_violated` and `C107_branches_violated`. -/
theorem C107_partial (ops : List Op) (hu : ∀ o ∈ ops, o.Usual) (d : Dsl) (hrun : run ops = some d) (hfit : Fits d)
    (hord : (Forest d ∧ DepthFirst d) ∨ ∃ c, Joined d c) (p : Nat → Params) (given : Nat → Tensor ℝ)
    (hgiven : ∀ v x, vertexAt d v = some x → x.1.accepts = true → ∀ i ∈ x.1.inShapes, HasShape (given v) i) :
    ∃ val, Means d p given val ∧ predict d p ((heads d).map given) = some ((outputsOf d).map fun v => some (some (val v))) := by
  have hs := run_sound ops hu d hrun
  have hr := rooted_of_fits d hs hfit
  obtain ⟨w, hw, hn, hseen, houts, hp⟩ := wires_ok d hs.forward hr
  have hsrc := ordered_sources d hs hr hord w hw
  have houts' := ordered_outs d hs hr hord w hw
  obtain ⟨val, h1, h2⟩ := predict_means d hs hfit w hw hsrc p given hgiven
  exact ⟨val, h1, by rw [h2, houts']⟩

/-- What a network delivers, by the order of its outputs. -/
theorem predict_shapes (ops : List Op) (hu : ∀ o ∈ ops, o.Usual) (d : Dsl) (hrun : run ops = some d) (hfit : Fits d) (w : Wires) (hw : wires d = some w)
    (p : Nat → Params) (given : Nat → Tensor ℝ)
    (hgiven : ∀ v x, vertexAt d v = some x → x.1.accepts = true → ∀ i ∈ x.1.inShapes, HasShape (given v) i) :
    ∃ val : Nat → Tensor ℝ, predict d p ((heads d).map given) = some (w.outs.map fun v => some (some (val v))) ∧
      ∀ v ∈ w.outs, ∀ x, vertexAt d v = some x → HasShape (val v) x.1.outShape := by
  have hs := run_sound ops hu d hrun
  obtain ⟨w', val, hw', hval, main, hpred⟩ := predict_values d hs hfit p given hgiven
  rw [hw] at hw'
  cases hw'
  obtain ⟨w', hw', _, hseen, houts, _⟩ := wires_ok d hs.forward (rooted_of_fits d hs hfit)
  rw [hw] at hw'
  cases hw'
  refine ⟨fun v => (val v).getD (given v), ?_, ?_⟩
  · rw [hpred]
    congr 1
    apply List.map_congr_left
    intro v hv
    rw [houts, List.mem_filter, hseen] at hv
    obtain ⟨x, hx⟩ := vertexAt_some d v hv.1.1 hv.1.2
    obtain ⟨t, ht, _⟩ := main v x hx
    simp only [ht, Option.getD_some]
  · intro v hv x hx
    obtain ⟨t, ht, hts⟩ := main v x hx
    simp only [ht, Option.getD_some]
    rw [houts, List.mem_filter] at hv
    rw [output_delivered d v x hx hv.2] at hts
    exact hts

/-- Two inputs, first the output (two numbers) of the second one, then the output (five numbers) of the first one. -/
def crossedOps : List Op :=
  [.input ⟨1, 3, 1⟩ ⟨1, 4, 1⟩ .full .relu false, .input ⟨1, 3, 1⟩ ⟨1, 4, 1⟩ .full .relu false, .layer 2 ⟨1, 4, 1⟩ ⟨1, 2, 1⟩ .full .sigmoid true,
    .layer 1 ⟨1, 4, 1⟩ ⟨1, 5, 1⟩ .full .softmax true]

/-- C107 fails if the outputs are not described in the order of the inputs: the output described first is delivered second, in every prediction. -/
theorem C107_violated :
    ∃ d, run crossedOps = some d ∧ outputsOf d = [3, 4] ∧ (vertexAt d 3).map (fun x => x.1.outShape) = some ⟨1, 2, 1⟩ ∧
      ∀ (p : Nat → Params) (a b : Tensor ℝ), HasShape a ⟨1, 3, 1⟩ → HasShape b ⟨1, 3, 1⟩ →
        ∃ y z, predict d p [a, b] = some [some (some y), some (some z)] ∧ HasShape y ⟨1, 5, 1⟩ ∧ HasShape z ⟨1, 2, 1⟩ := by
  obtain ⟨d, hd⟩ : ∃ d, run crossedOps = some d := ⟨_, rfl⟩
  have hfit : ((run crossedOps).map fun d => decide (Fits d ∧ outputsOf d = [3, 4] ∧ (vertexAt d 3).map (fun x => x.1.outShape) = some ⟨1, 2, 1⟩ ∧
    (vertexAt d 4).map (fun x => x.1.outShape) = some ⟨1, 5, 1⟩ ∧ heads d = [1, 2] ∧ ((wires d).map fun w => w.outs) = some [4, 3] ∧
    [1, 2].map (fun v => (vertexAt d v).map fun x => x.1.inShapes) = [some [⟨1, 3, 1⟩], some [⟨1, 3, 1⟩]])) = some true := by decide +kernel
  rw [hd, Option.map_some, Option.some.injEq, decide_eq_true_eq] at hfit
  obtain ⟨h1, h2, h3, h4, h5, h6, h7⟩ := hfit
  refine ⟨d, hd, h2, h3, ?_⟩
  intro p a b ha hb
  obtain ⟨w, hw, hwo⟩ := Option.map_eq_some_iff.1 h6
  obtain ⟨val, g1, g2⟩ := predict_shapes crossedOps (by decide) d hd h1 w hw p (fun v => if v = 1 then a else b) (by
    intro v x hx hacc i hi
    have hv : v ∈ heads d := (mem_heads d v).2 ⟨x, hx, hacc⟩
    rw [h5] at hv
    have h8 : (vertexAt d v).map (fun x => x.1.inShapes) = some [⟨1, 3, 1⟩] := by
      simp only [List.map_cons, List.map_nil, List.cons.injEq, and_true] at h7
      simp only [List.mem_cons, List.not_mem_nil, or_false] at hv
      rcases hv with rfl | rfl
      · exact h7.1
      · exact h7.2
    rw [hx, Option.map_some, Option.some.injEq] at h8
    rw [h8, List.mem_singleton] at hi
    subst hi
    split
    · exact ha
    · exact hb)
  rw [h5, hwo] at g1
  rw [hwo] at g2
  obtain ⟨x4, hx4, e4⟩ := Option.map_eq_some_iff.1 h4
  obtain ⟨x3, hx3, e3⟩ := Option.map_eq_some_iff.1 h3
  refine ⟨val 4, val 3, g1, ?_, ?_⟩
  · rw [← e4]; exact g2 4 (by simp) x4 hx4
  · rw [← e3]; exact g2 3 (by simp) x3 hx3

/-- Two inputs, an output (two numbers) of the second one, both joined, an output (five numbers) of that. -/
def sideOps : List Op :=
  [.input ⟨1, 3, 1⟩ ⟨1, 4, 1⟩ .full .relu false, .input ⟨1, 3, 1⟩ ⟨1, 4, 1⟩ .full .relu false, .layer 2 ⟨1, 4, 1⟩ ⟨1, 2, 1⟩ .full .sigmoid true,
    .concat [1, 2], .layer 4 ⟨1, 8, 1⟩ ⟨1, 5, 1⟩ .full .softmax true]

/-- C107 fails for depth-first descriptions, too, if branches are joined after an output was described. -/
theorem C107_branches_violated :
    ∃ d, run sideOps = some d ∧ DepthFirst d ∧ outputsOf d = [3, 5] ∧ (vertexAt d 3).map (fun x => x.1.outShape) = some ⟨1, 2, 1⟩ ∧
      ∀ (p : Nat → Params) (a b : Tensor ℝ), HasShape a ⟨1, 3, 1⟩ → HasShape b ⟨1, 3, 1⟩ →
        ∃ y z, predict d p [a, b] = some [some (some y), some (some z)] ∧ HasShape y ⟨1, 5, 1⟩ ∧ HasShape z ⟨1, 2, 1⟩ := by
  obtain ⟨d, hd⟩ : ∃ d, run sideOps = some d := ⟨_, rfl⟩
  have hfit : ((run sideOps).map fun d => decide (Fits d ∧ DepthFirst d ∧ outputsOf d = [3, 5] ∧ (vertexAt d 3).map (fun x => x.1.outShape) = some ⟨1, 2, 1⟩ ∧
    (vertexAt d 5).map (fun x => x.1.outShape) = some ⟨1, 5, 1⟩ ∧ heads d = [1, 2] ∧ ((wires d).map fun w => w.outs) = some [5, 3] ∧
    [1, 2].map (fun v => (vertexAt d v).map fun x => x.1.inShapes) = [some [⟨1, 3, 1⟩], some [⟨1, 3, 1⟩]])) = some true := by decide +kernel
  rw [hd, Option.map_some, Option.some.injEq, decide_eq_true_eq] at hfit
  obtain ⟨h1, h0, h2, h3, h4, h5, h6, h7⟩ := hfit
  refine ⟨d, hd, h0, h2, h3, ?_⟩
  intro p a b ha hb
  obtain ⟨w, hw, hwo⟩ := Option.map_eq_some_iff.1 h6
  obtain ⟨val, g1, g2⟩ := predict_shapes sideOps (by decide) d hd h1 w hw p (fun v => if v = 1 then a else b) (by
    intro v x hx hacc i hi
    have hv : v ∈ heads d := (mem_heads d v).2 ⟨x, hx, hacc⟩
    rw [h5] at hv
    have h8 : (vertexAt d v).map (fun x => x.1.inShapes) = some [⟨1, 3, 1⟩] := by
      simp only [List.map_cons, List.map_nil, List.cons.injEq, and_true] at h7
      simp only [List.mem_cons, List.not_mem_nil, or_false] at hv
      rcases hv with rfl | rfl
      · exact h7.1
      · exact h7.2
    rw [hx, Option.map_some, Option.some.injEq] at h8
    rw [h8, List.mem_singleton] at hi
    subst hi
    split
    · exact ha
    · exact hb)
  rw [h5, hwo] at g1
  rw [hwo] at g2
  obtain ⟨x4, hx4, e4⟩ := Option.map_eq_some_iff.1 h4
  obtain ⟨x3, hx3, e3⟩ := Option.map_eq_some_iff.1 h3
  refine ⟨val 5, val 3, g1, ?_, ?_⟩
  · rw [← e4]; exact g2 5 (by simp) x4 hx4
  · rw [← e3]; exact g2 3 (by simp) x3 hx3

/-- `C107_partial`, first case: a tree with three outputs. -/
def treeOps : List Op :=
  [.input ⟨1, 3, 1⟩ ⟨1, 4, 1⟩ .full .relu false, .layer 1 ⟨1, 4, 1⟩ ⟨1, 2, 1⟩ .full .sigmoid true, .layer 1 ⟨1, 4, 1⟩ ⟨1, 6, 1⟩ .full .relu false,
    .layer 3 ⟨1, 6, 1⟩ ⟨1, 5, 1⟩ .full .softmax true, .input ⟨1, 2, 1⟩ ⟨1, 1, 1⟩ .full .relu true]

example : (∀ o ∈ treeOps, o.Usual) ∧ ((run treeOps).map fun d => decide (Fits d ∧ Forest d ∧ DepthFirst d ∧ outputsOf d = [2, 4, 5])) = some true :=
  ⟨by decide, by decide +kernel⟩

/-- `C107_partial`, second case: three inputs that are joined. -/
def joinedInputOps : List Op :=
  [.input ⟨1, 3, 1⟩ ⟨1, 3, 1⟩ .flatten .linear false, .input ⟨2, 2, 1⟩ ⟨1, 4, 1⟩ .flatten .linear false, .input ⟨1, 1, 1⟩ ⟨1, 1, 1⟩ .flatten .linear false,
    .concat [1, 2, 3], .layer 4 ⟨1, 8, 1⟩ ⟨1, 5, 1⟩ .full .relu false, .layer 5 ⟨1, 5, 1⟩ ⟨1, 1, 1⟩ .full .sigmoid true,
    .layer 5 ⟨1, 5, 1⟩ ⟨1, 2, 1⟩ .full .softmax true]

example : (∀ o ∈ joinedInputOps, o.Usual) ∧ ((run joinedInputOps).map fun d => decide (Fits d ∧ Joined d 4 ∧ outputsOf d = [6, 7])) = some true :=
  ⟨by decide, by decide +kernel⟩

/-- C108 for concatenations of vertices on different branches of a depth-first forest, listed in the order of their description: the results are joined in
that order, and the error of the concatenation reaches every vertex as the part in which its result stood. Missing: vertices of which one was
made from another (see `C108_violated`), other orders, and concatenations after others. -/
theorem C108_partial (ops : List Op) (hu : ∀ o ∈ ops, o.Usual) (d : Dsl) (hrun : run ops = some d) (hfit : Fits d) (c : Nat) (x : Vertex × List Nat)
    (hx : vertexAt d c = some x) (hk : x.1.kind = .concatenate) (hb : Branches d c) (hpos : ∀ i ∈ x.1.inShapes, 0 < i.cols) (t : Nat → Tensor ℝ)
    (ht : ∀ q ∈ x.2, ∀ y, vertexAt d q = some y → HasShape (t q) y.1.outShape) :
    ∃ w joined parts, wires d = some w ∧ concatForward ((Graph.inputs w.conns c).map fun e => t (Graph.src w.conns e)) = some joined ∧
      concatForward (x.2.map t) = some joined ∧ errorParts w c x.1 joined = some parts ∧ parts.map Prod.fst = x.2 ∧
      ∀ q r, (q, r) ∈ parts → Tensor.Same r (t q) := by
  have hs := run_sound ops hu d hrun
  have hr := rooted_of_fits d hs hfit
  obtain ⟨w, hw, _⟩ := wires_ok d hs.forward hr
  have hord := branches_order d hs hr c hb w hw
  have hps : parentsAt d c = x.2 := by unfold parentsAt; rw [hx]; rfl
  rw [hps] at hord
  obtain ⟨hfx, hlink, _⟩ := hfit.1 x (vertexAt_mem d c x hx)
  unfold FitsVertex at hfx
  rw [hk] at hfx
  simp only at hfx
  obtain ⟨c1, c2, _⟩ := hfx
  have hshapes : ∀ (qs : List Nat) (l : List Shape), (∀ q ∈ qs, ∀ y, vertexAt d q = some y → HasShape (t q) y.1.outShape) → outShapes d qs = some l →
      l.map Shape.cols = (qs.map t).map (·.cols) ∧ ∀ q ∈ qs, ∃ i ∈ l, HasShape (t q) i := by
    intro qs
    induction qs with
    | nil =>
      intro l _ h
      have : ([] : List Shape) = l := Option.some.inj h
      subst this
      exact ⟨rfl, by simp⟩
    | cons q qs ih =>
      intro l hq h
      obtain ⟨y, l', h1, h2, rfl⟩ := outShapes_cons d q qs l h
      obtain ⟨g1, g2⟩ := ih l' (fun q hq' => hq q (List.mem_cons_of_mem _ hq')) h2
      have hy := hq q List.mem_cons_self y h1
      refine ⟨by simp [g1, hy.2.1], ?_⟩
      intro q' hq'
      rcases List.mem_cons.1 hq' with rfl | hq'
      · exact ⟨_, List.mem_cons_self, hy⟩
      · obtain ⟨i, hi, hti⟩ := g2 q' hq'
        exact ⟨i, List.mem_cons_of_mem _ hi, hti⟩
  have hne : x.2 ≠ [] := by
    intro h0
    rcases (hs c x.1 x.2 hx).2 with ⟨ha, h, i, hi, _⟩ | ⟨_, hk', _⟩ | ⟨_, _, _, _, _, _, _, ho, _⟩
    · rw [hi] at c1; simp at c1
    · exact hk' hk
    · rw [h0] at ho
      have : ([] : List Shape) = x.1.inShapes := Option.some.inj ho
      rw [← this] at c1; simp at c1
  obtain ⟨hcols, hall⟩ := hshapes x.2 x.1.inShapes ht (hlink hne)
  have hlen : x.1.inShapes.length = x.2.length := by
    have := congrArg List.length hcols
    simpa using this
  obtain ⟨a, b, qs, hqs⟩ : ∃ a b qs, x.2 = a :: b :: qs := by
    rw [hlen] at c1
    match h : x.2, c1 with
    | a :: b :: qs, _ => exact ⟨a, b, qs, rfl⟩
  have hone : ∀ q ∈ x.2, (t q).rows = 1 ∧ (t q).chans = 1 ∧ 0 < (t q).cols := by
    intro q hq
    obtain ⟨i, hi, h1, h2, h3⟩ := hall q hq
    exact ⟨by rw [h1]; exact (c2 i hi).1, by rw [h3]; exact (c2 i hi).2, by rw [h2]; exact hpos i hi⟩
  obtain ⟨v, out, e1, e2, e3⟩ := C31_round_trip (t a) (t b) (qs.map t) (by
    intro u hu
    have hu' : u ∈ (b :: qs).map t := by simpa using hu
    rw [List.mem_map] at hu'
    obtain ⟨q, hq, rfl⟩ := hu'
    have h1 := hone q (by rw [hqs]; exact List.mem_cons_of_mem _ hq)
    have h2 := hone a (by rw [hqs]; simp)
    exact ⟨by rw [h1.1, h2.1], by rw [h1.2.1, h2.2.1]⟩) (by
    intro u hu
    have hu' : u ∈ (a :: b :: qs).map t := by simpa using hu
    rw [List.mem_map] at hu'
    obtain ⟨q, hq, rfl⟩ := hu'
    exact (hone q (by rw [hqs]; exact hq)).2.2)
  have hmt : t a :: t b :: qs.map t = x.2.map t := by rw [hqs]; rfl
  rw [hmt] at e1 e2 e3
  have hol : out.length = x.2.length := by simpa using e3.length_eq
  have hfwd : ((Graph.inputs w.conns c).map fun e => t (Graph.src w.conns e)) = x.2.map t := by
    rw [show (fun e => t (Graph.src w.conns e)) = t ∘ Graph.src w.conns from rfl, ← List.map_map, hord]
  have hil : (Graph.inputs w.conns c).length = x.2.length := by
    have := congrArg List.length hord
    simpa using this
  refine ⟨w, v, x.2.zip out, hw, by rw [hfwd]; exact e1, e1, ?_, ?_, ?_⟩
  · unfold errorParts
    rw [hcols, e2, Option.bind_some, if_neg (by rw [hol, hil]; simp), hord]
  · rw [List.map_fst_zip]; omega
  · intro q r hqr
    rw [List.forall₂_iff_get] at e3
    obtain ⟨i, hi, he⟩ := List.getElem_of_mem hqr
    rw [List.getElem_zip] at he
    have h1 := congrArg Prod.fst he
    have h2 := congrArg Prod.snd he
    simp only at h1 h2
    rw [List.length_zip] at hi
    have h3 := e3.2 i (by omega) (by rw [List.length_map]; omega)
    simp only [List.get_eq_getElem, List.getElem_map] at h3
    rw [← h1, ← h2]
    exact h3

/-- `C108_partial`: two layers on different branches behind the same input, and a second input. -/
def branchOps : List Op :=
  [.input ⟨1, 3, 1⟩ ⟨1, 4, 1⟩ .full .relu false, .layer 1 ⟨1, 4, 1⟩ ⟨1, 2, 1⟩ .full .relu false, .layer 1 ⟨1, 4, 1⟩ ⟨1, 6, 1⟩ .full .relu false,
    .input ⟨1, 5, 1⟩ ⟨1, 5, 1⟩ .flatten .linear false, .concat [2, 3, 4], .layer 5 ⟨1, 13, 1⟩ ⟨1, 1, 1⟩ .full .sigmoid true]

example : (∀ o ∈ branchOps, o.Usual) ∧
    ((run branchOps).map fun d => decide (Fits d ∧ Branches d 5 ∧
      ((vertexAt d 5).map fun x => decide (x.1.kind = .concatenate ∧ x.2 = [2, 3, 4] ∧ ∀ i ∈ x.1.inShapes, 0 < i.cols)) = some true)) = some true :=
  ⟨by decide, by decide +kernel⟩

/-- A skip connection: an input layer with two numbers, a layer with three numbers on top of it, both joined, and an output. -/
def skipOps : List Op :=
  [.input ⟨1, 2, 1⟩ ⟨1, 2, 1⟩ .full .relu false, .layer 1 ⟨1, 2, 1⟩ ⟨1, 3, 1⟩ .full .relu false, .concat [1, 2],
    .layer 3 ⟨1, 5, 1⟩ ⟨1, 1, 1⟩ .full .sigmoid true]

/-- C108 fails for skip connections: the results are joined in the other order, and the layer with three numbers gets an error with two columns, while the last
of its own columns goes to the other layer. -/
theorem C108_violated :
    ∃ d x, run skipOps = some d ∧ Fits d ∧ vertexAt d 3 = some x ∧ x.2 = [1, 2] ∧
      ∀ t : Nat → Tensor ℝ, HasShape (t 1) ⟨1, 2, 1⟩ → HasShape (t 2) ⟨1, 3, 1⟩ →
        ∃ w joined e1 e2, wires d = some w ∧ concatForward ((Graph.inputs w.conns 3).map fun e => t (Graph.src w.conns e)) = some joined ∧
          joined.get 0 0 0 = (t 2).get 0 0 0 ∧ errorParts w 3 x.1 joined = some [(2, e2), (1, e1)] ∧ e2.cols = 2 ∧ (t 2).cols = 3 ∧
          e1.get 0 0 0 = (t 2).get 0 2 0 := by
  obtain ⟨d, hd⟩ : ∃ d, run skipOps = some d := ⟨_, rfl⟩
  have hfit : ((run skipOps).map fun d => decide (Fits d ∧ ((vertexAt d 3).map fun x => (x.2, x.1.inShapes)) = some ([1, 2], [⟨1, 2, 1⟩, ⟨1, 3, 1⟩]) ∧
    ((wires d).map fun w => (Graph.inputs w.conns 3).map (Graph.src w.conns)) = some [2, 1])) = some true := by decide +kernel
  rw [hd, Option.map_some, Option.some.injEq, decide_eq_true_eq] at hfit
  obtain ⟨h1, h2, h3⟩ := hfit
  obtain ⟨x, hx, hx2⟩ := Option.map_eq_some_iff.1 h2
  obtain ⟨w, hw, hsrc⟩ := Option.map_eq_some_iff.1 h3
  simp only [Prod.mk.injEq] at hx2
  refine ⟨d, x, hd, h1, hx, hx2.1, ?_⟩
  intro t ⟨a1, a2, a3⟩ ⟨b1, b2, b3⟩
  have hfwd : ((Graph.inputs w.conns 3).map fun e => t (Graph.src w.conns e)) = [t 2, t 1] := by
    rw [show (fun e => t (Graph.src w.conns e)) = t ∘ Graph.src w.conns from rfl, ← List.map_map, hsrc]; rfl
  have hil : (Graph.inputs w.conns 3).length = 2 := by
    have := congrArg List.length hsrc
    simpa using this
  refine ⟨w, ⟨1, 5, 1, fun r c k => if c < 3 then (t 2).get r c k else (t 1).get r (c - 3) k⟩,
    ⟨1, 3, 1, fun r c k => if c + 2 < 3 then (t 2).get r (c + 2) k else (t 1).get r (c + 2 - 3) k⟩,
    ⟨1, 2, 1, fun r c k => if c + 0 < 3 then (t 2).get r (c + 0) k else (t 1).get r (c + 0 - 3) k⟩, hw, ?_, by simp, ?_, rfl, b2, by simp⟩
  · rw [hfwd]
    simp [concatForward, concatLoop, concatWide, a1, a2, b1, b2, b3]
  · unfold errorParts
    rw [hx2.2]
    simp [concatBackward, concatBackwardFrom, window, hil, hsrc]

end Verif.Wiring
