import Verif.Lemmas.DslBuild

/-! A description made depth first is made again by the loader. -/

namespace Verif.Dsl
open Verif.TextCodec Verif.Decimal Verif.Enums

/-! ### What the calls guarantee -/

/-- Flags that only full layers and convolutions may have. -/
def FlagsOk (x : Vertex) : Prop := x.weighted = false → x.materialized = false ∧ x.bias = false ∧ x.l2 = false ∧ x.norm = false

/-- The output shape of a convolution. -/
def convOut (i : Shape) (filters kernel : Nat) : Shape :=
  ⟨wrap (i.rows + 2 ^ 64 - wrap kernel + 1), wrap (i.cols + 2 ^ 64 - wrap kernel + 1), filters⟩

/-- How an input, a layer or a concatenation looks. -/
def Sound (d : Dsl) (v : Nat) (x : Vertex) (ps : List Nat) : Prop :=
  FlagsOk x ∧
  ((x.accepts = true ∧ ps = [] ∧ ∃ i, x.inShapes = [i] ∧
      ((x.filters = 0 ∧ x.kernel = 0 ∧ (x.output = true → x.kind = .full)) ∨
       (0 < x.filters ∧ x.kind = .convolution2dValid ∧ x.outShape = convOut i x.filters x.kernel))) ∨
   (x.accepts = false ∧ x.kind ≠ .concatenate ∧ ∃ p y i, ps = [p] ∧ p < v ∧ vertexAt d p = some y ∧ x.inShapes = [i] ∧
      ((x.filters = 0 ∧ x.kernel = 0 ∧ (x.output = true → x.kind = .full)) ∨
       (0 < x.filters ∧ x.kind = .convolution2dValid ∧ i = y.1.outShape ∧ x.outShape = convOut i x.filters x.kernel))) ∨
   (x.accepts = false ∧ x.kind = .concatenate ∧ x.output = false ∧ x.act = .linear ∧ x.filters = 0 ∧ x.kernel = 0 ∧ (∀ p ∈ ps, p < v) ∧
      outShapes d ps = some x.inShapes ∧ x.outShape = ⟨1, wrap (x.inShapes.map Shape.cols).sum, 1⟩))

/-- Every vertex looks as the calls make it. -/
def AllSound (d : Dsl) : Prop := ∀ v x ps, vertexAt d v = some (x, ps) → Sound d v x ps

theorem vertexAt_append (d : Dsl) (e : Vertex × List Nat) (v : Nat) (y : Vertex × List Nat) (h : vertexAt d v = some y) : vertexAt (d ++ [e]) v = some y := by
  have hr := vertexAt_range d v y h
  unfold vertexAt at h ⊢
  split at h
  · cases h
  · rename_i h0
    rw [if_neg h0, List.getElem?_append_left (by omega)]
    exact h

theorem outShapes_congr (d d' : Dsl) (ps : List Nat)
    (h : ∀ p ∈ ps, (vertexAt d' p).map (fun x => x.1.outShape) = (vertexAt d p).map (fun x => x.1.outShape)) : outShapes d' ps = outShapes d ps := by
  unfold outShapes
  induction ps with
  | nil => rfl
  | cons p ps ih =>
    rw [List.mapM_cons, List.mapM_cons, h p List.mem_cons_self, ih fun p hp => h p (List.mem_cons_of_mem _ hp)]

theorem outShapes_some (d : Dsl) (ps : List Nat) (l : List Shape) (h : outShapes d ps = some l) : ∀ p ∈ ps, ∃ y, vertexAt d p = some y := by
  unfold outShapes at h
  induction ps generalizing l with
  | nil => simp
  | cons p ps ih =>
    rw [List.mapM_cons] at h
    cases hv : vertexAt d p with
    | none => rw [hv] at h; simp at h
    | some y =>
      rw [hv] at h
      simp only [Option.map_some, Option.bind_eq_bind, Option.bind_some] at h
      cases hm : List.mapM (fun v => (vertexAt d v).map fun x => x.1.outShape) ps with
      | none => rw [hm] at h; simp at h
      | some l' =>
        intro q hq
        rcases List.mem_cons.1 hq with rfl | hq
        · exact ⟨y, hv⟩
        · exact ih l' hm q hq

/-- A change of the description that keeps the outputs of all vertices keeps soundness. -/
theorem Sound.mono {d d' : Dsl} {v : Nat} {x : Vertex} {ps : List Nat} (h : Sound d v x ps)
    (hd : ∀ p y, vertexAt d p = some y → ∃ y', vertexAt d' p = some y' ∧ y'.1.outShape = y.1.outShape) : Sound d' v x ps := by
  obtain ⟨h0, h⟩ := h
  refine ⟨h0, ?_⟩
  rcases h with h | ⟨h1, h2, p, y, i, h3, h4, h5, h6, h7⟩ | ⟨h1, h2, h3, h4, h5, h6, h7, h8, h9⟩
  · exact Or.inl h
  · obtain ⟨y', hy', ho⟩ := hd p y h5
    refine Or.inr (Or.inl ⟨h1, h2, p, y', i, h3, h4, hy', h6, ?_⟩)
    rw [ho]; exact h7
  · refine Or.inr (Or.inr ⟨h1, h2, h3, h4, h5, h6, h7, ?_, h9⟩)
    rw [← h8]
    apply outShapes_congr
    intro p hp
    obtain ⟨y, hy⟩ := outShapes_some d ps _ h8 p hp
    obtain ⟨y', hy', ho⟩ := hd p y hy
    rw [hy, hy', Option.map_some, Option.map_some, ho]

theorem AllSound.append {d : Dsl} (h : AllSound d) (x : Vertex) (ps : List Nat) (hx : Sound d (d.length + 1) x ps) : AllSound (d ++ [(x, ps)]) := by
  have hd : ∀ p y, vertexAt d p = some y → ∃ y', vertexAt (d ++ [(x, ps)]) p = some y' ∧ y'.1.outShape = y.1.outShape :=
    fun p y hy => ⟨y, vertexAt_append d _ p y hy, rfl⟩
  intro v y qs hv
  have hr := vertexAt_range _ v _ hv
  rw [List.length_append, List.length_singleton] at hr
  by_cases hlt : v ≤ d.length
  · obtain ⟨z, hz⟩ := vertexAt_some d v hr.1 hlt
    have := vertexAt_append d (x, ps) v z hz
    rw [hv] at this
    cases this
    exact (h v y qs hz).mono hd
  · have hv' : v = d.length + 1 := by omega
    subst hv'
    unfold vertexAt at hv
    rw [if_neg (by omega), show d.length + 1 - 1 = d.length by omega, List.getElem?_append_right (by omega), Nat.sub_self] at hv
    simp only [List.getElem?_cons_zero, Option.some.injEq, Prod.mk.injEq] at hv
    obtain ⟨rfl, rfl⟩ := hv
    exact hx.mono hd

/-- What settings do not change. -/
def SameCore (x y : Vertex) : Prop :=
  x.accepts = y.accepts ∧ x.output = y.output ∧ x.kind = y.kind ∧ x.act = y.act ∧ x.inShapes = y.inShapes ∧ x.outShape = y.outShape ∧
  x.filters = y.filters ∧ x.kernel = y.kernel

theorem set_core (x y : Vertex) (s : Setting) (h : x.set s = some y) (hf : FlagsOk x) : SameCore y x ∧ FlagsOk y := by
  unfold FlagsOk at *
  cases s with
  | materialized b =>
    unfold Vertex.set at h
    dsimp only at h
    split at h
    · cases h
    · rename_i hb
      cases h
      refine ⟨⟨rfl, rfl, rfl, rfl, rfl, rfl, rfl, rfl⟩, fun hw => ?_⟩
      have hw' : x.weighted = false := hw
      obtain ⟨h1, h2, h3, h4⟩ := hf hw'
      cases b
      · exact ⟨rfl, h2, h3, h4⟩
      · exact absurd ⟨rfl, hw'⟩ hb
  | bias b =>
    unfold Vertex.set at h
    dsimp only at h
    split at h
    · cases h
    · rename_i hb
      cases h
      refine ⟨⟨rfl, rfl, rfl, rfl, rfl, rfl, rfl, rfl⟩, fun hw => ?_⟩
      have hw' : x.weighted = false := hw
      obtain ⟨h1, h2, h3, h4⟩ := hf hw'
      cases b
      · exact ⟨h1, rfl, h3, h4⟩
      · exact absurd ⟨rfl, hw'⟩ hb
  | l2 b =>
    unfold Vertex.set at h
    dsimp only at h
    split at h
    · cases h
    · rename_i hb
      cases h
      refine ⟨⟨rfl, rfl, rfl, rfl, rfl, rfl, rfl, rfl⟩, fun hw => ?_⟩
      have hw' : x.weighted = false := hw
      obtain ⟨h1, h2, h3, h4⟩ := hf hw'
      cases b
      · exact ⟨h1, h2, rfl, h4⟩
      · exact absurd ⟨rfl, hw'⟩ hb
  | norm b =>
    unfold Vertex.set at h
    dsimp only at h
    split at h
    · cases h
    · rename_i hb
      cases h
      refine ⟨⟨rfl, rfl, rfl, rfl, rfl, rfl, rfl, rfl⟩, fun hw => ?_⟩
      have hw' : x.weighted = false := hw
      obtain ⟨h1, h2, h3, h4⟩ := hf hw'
      cases b
      · exact ⟨h1, h2, h3, rfl⟩
      · exact absurd ⟨rfl, hw'⟩ hb
  | bits n => cases h; exact ⟨⟨rfl, rfl, rfl, rfl, rfl, rfl, rfl, rfl⟩, hf⟩
  | strength n => cases h; exact ⟨⟨rfl, rfl, rfl, rfl, rfl, rfl, rfl, rfl⟩, hf⟩
  | clipAt n => cases h; exact ⟨⟨rfl, rfl, rfl, rfl, rfl, rfl, rfl, rfl⟩, hf⟩
  | clip n => cases h; exact ⟨⟨rfl, rfl, rfl, rfl, rfl, rfl, rfl, rfl⟩, hf⟩
  | dropout n => cases h; exact ⟨⟨rfl, rfl, rfl, rfl, rfl, rfl, rfl, rfl⟩, hf⟩

theorem Sound.congr {d : Dsl} {v : Nat} {x y : Vertex} {ps : List Nat} (h : Sound d v x ps) (hc : SameCore y x) (hf : FlagsOk y) : Sound d v y ps := by
  obtain ⟨c1, c2, c3, c4, c5, c6, c7, c8⟩ := hc
  refine ⟨hf, ?_⟩
  rw [c1, c2, c3, c4, c5, c6, c7, c8]
  exact h.2

theorem plain_ok {k : LayerType} {i o : Shape} {out given : Bool} {a : ActivationType} {x : Vertex} (h : plain k i o out given a = some x) :
    x.accepts = given ∧ x.output = out ∧ x.kind = k ∧ x.act = a ∧ x.inShapes = [i] ∧ x.outShape = o ∧ x.filters = 0 ∧ x.kernel = 0 ∧
      (out = true → k = .full) ∧ FlagsOk x := by
  unfold plain at h
  split at h
  · cases h
  · rename_i hc
    cases h
    refine ⟨rfl, rfl, rfl, rfl, rfl, rfl, rfl, rfl, fun ho => ?_, fun hw => ⟨rfl, rfl, ?_, rfl⟩⟩
    · by_contra hk; exact hc ⟨ho, hk⟩
    · unfold Vertex.weighted at hw
      simp only [Bool.or_eq_false_iff] at hw
      exact hw.1

theorem filtered_ok {k : LayerType} {i : Shape} {f n : Nat} {out given : Bool} {a : ActivationType} {x : Vertex} (hk : k = .convolution2dValid)
    (h : filtered k i f n out given a = some x) :
    x.accepts = given ∧ x.output = out ∧ x.kind = k ∧ x.act = a ∧ x.inShapes = [i] ∧ x.outShape = convOut i f n ∧ x.filters = f ∧ x.kernel = n ∧
      FlagsOk x := by
  unfold filtered at h
  split at h
  · cases h
  · cases h
    refine ⟨rfl, rfl, rfl, rfl, rfl, rfl, rfl, rfl, fun hw => ?_⟩
    unfold Vertex.weighted at hw
    simp [hk] at hw

theorem step_sound (d d' : Dsl) (o : Op) (hu : o.Usual) (h : AllSound d) (hs : step d o = some d') : AllSound d' := by
  cases o with
  | input i o k a out =>
    simp only [step, Option.map_eq_some_iff] at hs
    obtain ⟨x, hx, rfl⟩ := hs
    obtain ⟨h1, h2, h3, h4, h5, h6, h7, h8, h9, h10⟩ := plain_ok hx
    refine h.append x [] ⟨h10, Or.inl ⟨h1, rfl, i, h5, Or.inl ⟨h7, h8, ?_⟩⟩⟩
    rw [h2, h3]; exact h9
  | inputFilters i f n k a out =>
    simp only [step, Option.map_eq_some_iff] at hs
    obtain ⟨x, hx, rfl⟩ := hs
    obtain ⟨h1, h2, h3, h4, h5, h6, h7, h8, h10⟩ := filtered_ok hu.1 hx
    refine h.append x [] ⟨h10, Or.inl ⟨h1, rfl, i, h5, Or.inr ⟨?_, ?_, ?_⟩⟩⟩
    · rw [h7]; exact hu.2
    · rw [h3]; exact hu.1
    · rw [h6, h7, h8]
  | layer p i o k a out =>
    simp only [step, Option.bind_eq_some_iff, Option.map_eq_some_iff] at hs
    obtain ⟨y, hy, x, hx, rfl⟩ := hs
    obtain ⟨h1, h2, h3, h4, h5, h6, h7, h8, h9, h10⟩ := plain_ok hx
    have hr := vertexAt_range d p y hy
    refine h.append x [p] ⟨h10, Or.inr (Or.inl ⟨h1, ?_, p, y, i, rfl, by omega, hy, h5, Or.inl ⟨h7, h8, ?_⟩⟩)⟩
    · rw [h3]; exact hu
    · rw [h2, h3]; exact h9
  | layerFilters p f n k a out =>
    simp only [step, Option.bind_eq_some_iff, Option.map_eq_some_iff] at hs
    obtain ⟨y, hy, x, hx, rfl⟩ := hs
    obtain ⟨h1, h2, h3, h4, h5, h6, h7, h8, h10⟩ := filtered_ok hu.1 hx
    have hr := vertexAt_range d p y hy
    refine h.append x [p] ⟨h10, Or.inr (Or.inl ⟨h1, ?_, p, y, y.1.outShape, rfl, by omega, hy, h5, Or.inr ⟨?_, ?_, rfl, ?_⟩⟩)⟩
    · rw [h3, hu.1]; decide
    · rw [h7]; exact hu.2
    · rw [h3]; exact hu.1
    · rw [h6, h7, h8]
  | concat ps =>
    simp only [step, Option.map_eq_some_iff] at hs
    obtain ⟨l, hl, rfl⟩ := hs
    refine h.append _ ps ⟨fun _ => ⟨rfl, rfl, rfl, rfl⟩, Or.inr (Or.inr ⟨rfl, rfl, rfl, rfl, rfl, rfl, ?_, hl, rfl⟩)⟩
    intro p hp
    obtain ⟨y, hy⟩ := outShapes_some d ps l hl p hp
    have := vertexAt_range d p y hy
    omega
  | set v s =>
    simp only [step, Option.bind_eq_some_iff, Option.map_eq_some_iff] at hs
    obtain ⟨x, hx, w, hw, rfl⟩ := hs
    obtain ⟨x, ps⟩ := x
    have hvr := vertexAt_range d v _ hx
    have hsx := h v x ps hx
    obtain ⟨c, f⟩ := set_core x w s hw hsx.1
    have hat : ∀ u y, vertexAt d u = some y → vertexAt (d.set (v - 1) (w, ps)) u = some (if u = v then (w, ps) else y) := by
      intro u y hu
      have hur := vertexAt_range d u y hu
      unfold vertexAt at hu ⊢
      rw [if_neg (by omega)] at hu ⊢
      by_cases huv : u = v
      · subst huv
        rw [if_pos rfl, List.getElem?_set_self (by omega)]
      · rw [if_neg huv, List.getElem?_set_ne (by omega), hu]
    have hd : ∀ p y, vertexAt d p = some y → ∃ y', vertexAt (d.set (v - 1) (w, ps)) p = some y' ∧ y'.1.outShape = y.1.outShape := by
      intro p y hy
      refine ⟨_, hat p y hy, ?_⟩
      split
      · rename_i hpv
        subst hpv
        rw [hx] at hy; cases hy
        exact c.2.2.2.2.2.1
      · rfl
    intro u z qs hz
    have hur := vertexAt_range _ u _ hz
    rw [List.length_set] at hur
    obtain ⟨y, hy⟩ := vertexAt_some d u hur.1 hur.2
    rw [hat u y hy] at hz
    split at hz
    · rename_i huv
      subst huv
      cases hz
      exact (hsx.congr c f).mono hd
    · cases hz
      exact (h u z qs hy).mono hd

theorem run_sound (ops : List Op) (hu : ∀ o ∈ ops, o.Usual) (d : Dsl) (h : run ops = some d) : AllSound d := by
  have key : ∀ (ops : List Op) (d0 d : Dsl), (∀ o ∈ ops, o.Usual) → AllSound d0 → ops.foldlM step d0 = some d → AllSound d := by
    intro ops
    induction ops with
    | nil =>
      intro d0 d _ h0 he
      rw [List.foldlM_nil] at he
      cases he; exact h0
    | cons o ops ih =>
      intro d0 d hu h0 he
      rw [List.foldlM_cons] at he
      simp only [Option.bind_eq_bind, Option.bind_eq_some_iff] at he
      obtain ⟨d1, h1, h2⟩ := he
      exact ih d1 d (fun o ho => hu o (List.mem_cons_of_mem _ ho)) (step_sound d0 d1 o (hu o List.mem_cons_self) h0 h1) h2
  exact key ops [] d hu (by intro v x ps hv; unfold vertexAt at hv; split at hv <;> simp at hv) h

theorem AllSound.forward {d : Dsl} (h : AllSound d) : Forward d := by
  intro v p hp
  unfold parentsAt at hp
  cases hv : vertexAt d v with
  | none => simp [hv] at hp
  | some x =>
    obtain ⟨x, ps⟩ := x
    rw [hv] at hp
    simp only [Option.map_some, Option.getD_some] at hp
    rcases (h v x ps hv).2 with ⟨_, rfl, _⟩ | ⟨_, _, q, y, i, rfl, hlt, hy, _⟩ | ⟨_, _, _, _, _, _, hlt, hs, _⟩
    · cases hp
    · simp only [List.mem_singleton] at hp
      subst hp
      exact ⟨(vertexAt_range d _ y hy).1, hlt⟩
    · obtain ⟨y, hy⟩ := outShapes_some d ps _ hs p hp
      exact ⟨(vertexAt_range d _ y hy).1, hlt p hp⟩

/-! ### Lineages -/

section
variable (d : Dsl) (hf : Forward d)
include hf

theorem addedTo_lt (v : Nat) (h : 1 ≤ v) : addedTo d v < v := by
  unfold addedTo
  cases hl : (parentsAt d v).getLast? with
  | none => show 0 < v; omega
  | some p => exact (hf v p (List.mem_of_getLast? hl)).2

theorem lineage_step (v : Nat) (h : 1 ≤ v) : lineage d v = v :: lineage d (addedTo d v) := by
  conv_lhs => unfold lineage
  rw [if_pos (addedTo_lt d hf v h)]

omit hf in
theorem lineage_zero : lineage d 0 = [0] := by
  unfold lineage
  rw [if_neg (by omega)]

theorem lineage_self (v : Nat) : v ∈ lineage d v := by
  rcases Nat.eq_zero_or_pos v with rfl | h
  · rw [lineage_zero d]; simp
  · rw [lineage_step d hf v h]; simp

theorem lineage_le (v a : Nat) (h : a ∈ lineage d v) : a ≤ v := by
  induction v using Nat.strong_induction_on with
  | _ v ih =>
    rcases Nat.eq_zero_or_pos v with rfl | hv
    · rw [lineage_zero d] at h; simp at h; omega
    · rw [lineage_step d hf v hv, List.mem_cons] at h
      have := addedTo_lt d hf v hv
      rcases h with rfl | h
      · exact Nat.le_refl _
      · have := ih _ this h; omega

theorem lineage_root (v : Nat) : 0 ∈ lineage d v := by
  induction v using Nat.strong_induction_on with
  | _ v ih =>
    rcases Nat.eq_zero_or_pos v with rfl | hv
    · rw [lineage_zero d]; simp
    · rw [lineage_step d hf v hv]
      exact List.mem_cons_of_mem _ (ih _ (addedTo_lt d hf v hv))

theorem lineage_trans (a b c : Nat) (h : a ∈ lineage d b) (h' : b ∈ lineage d c) : a ∈ lineage d c := by
  induction c using Nat.strong_induction_on with
  | _ c ih =>
    rcases Nat.eq_zero_or_pos c with rfl | hc
    · rw [lineage_zero d] at h'; simp at h'; subst h'; exact h
    · rw [lineage_step d hf c hc, List.mem_cons] at h'
      rcases h' with rfl | h'
      · exact h
      · rw [lineage_step d hf c hc]
        exact List.mem_cons_of_mem _ (ih _ (addedTo_lt d hf c hc) h')

theorem lineage_chain (a b c : Nat) (h : a ∈ lineage d c) (h' : b ∈ lineage d c) : a ∈ lineage d b ∨ b ∈ lineage d a := by
  induction c using Nat.strong_induction_on with
  | _ c ih =>
    rcases Nat.eq_zero_or_pos c with rfl | hc
    · rw [lineage_zero d] at h h'
      simp at h h'
      subst h; subst h'
      exact Or.inl (lineage_self d hf 0)
    · have hs := lineage_step d hf c hc
      have h0 := h
      have h0' := h'
      rw [hs, List.mem_cons] at h h'
      rcases h with rfl | h
      · exact Or.inr h0'
      · rcases h' with rfl | h'
        · exact Or.inl h0
        · exact ih _ (addedTo_lt d hf c hc) h h'

variable (hdf : DepthFirst d)
include hdf

omit hf in
theorem DepthFirst.at (v : Nat) (h1 : 1 ≤ v) (h2 : v ≤ d.length) :
    (parentsAt d v).Pairwise (· < ·) ∧ addedTo d v ∈ lineage d (v - 1) ∧ (∀ q ∈ (parentsAt d v).dropLast, q ∉ lineage d (addedTo d v)) ∧
      (parentsAt d v = [] → ((vertexAt d v).map fun x => x.1.accepts) = some true) :=
  hdf v (List.mem_map.2 ⟨v - 1, List.mem_range.2 (by omega), by omega⟩)

theorem lineage_interval (v w : Nat) (hw : w ≤ d.length) (h : v ∈ lineage d w) : ∀ u, v ≤ u → u ≤ w → v ∈ lineage d u := by
  induction w with
  | zero =>
    intro u h1 h2
    have : u = 0 := by omega
    subst this
    exact h
  | succ w ih =>
    intro u h1 h2
    by_cases hu : u = w + 1
    · subst hu; exact h
    · have hstep := lineage_step d hf (w + 1) (by omega)
      rw [hstep, List.mem_cons] at h
      rcases h with rfl | h
      · omega
      · have := (DepthFirst.at d hdf (w + 1) (by omega) hw).2.1
        rw [show w + 1 - 1 = w by omega] at this
        exact ih (by omega) (lineage_trans d hf _ _ _ h this) u h1 (by omega)

/-- A loop over the edges of a vertex (or over the inputs, for `v = 0`). `R s k`: `s` is a state in which exactly the first `k` vertices have been made. -/
theorem edge_loop_rel {σ : Type} (R : σ → Nat → Prop) (f : σ → Nat → Option σ) (v : Nat)
    (hT : ∀ c s, R s (c - 1) → 1 ≤ c → c ≤ d.length → addedTo d c = v → v < c → ∃ s' k, f s c = some s' ∧ R s' k ∧ c ≤ k ∧ k ≤ d.length ∧
      (∀ w, c ≤ w → w ≤ k → c ∈ lineage d w) ∧ (k < d.length → c ∉ lineage d (k + 1)))
    (hN : ∀ c k s, R s k → v ∈ (parentsAt d c).dropLast → v ≤ k → k < addedTo d c → ∃ s', f s c = some s' ∧ R s' k)
    (l : List Nat) (k : Nat) (s : σ) (hR : R s k) (hk : v ≤ k) (hkn : k ≤ d.length) (hin : ∀ w, v ≤ w → w ≤ k → v ∈ lineage d w)
    (hpath : k < d.length → ∀ u, u ∈ lineage d k → v ∈ lineage d u → u ≠ v → u ∉ lineage d (k + 1))
    (hsort : l.Pairwise (· < ·)) (hgt : ∀ c ∈ l, k < c ∧ c ≤ d.length) (hmem : ∀ c ∈ l, addedTo d c = v ∨ v ∈ (parentsAt d c).dropLast)
    (hall : ∀ c, k < c → c ≤ d.length → addedTo d c = v → c ∈ l) :
    ∃ s' k', l.foldlM f s = some s' ∧ R s' k' ∧ v ≤ k' ∧ k' ≤ d.length ∧ (∀ w, v ≤ w → w ≤ k' → v ∈ lineage d w) ∧
      (k' < d.length → v ∉ lineage d (k' + 1)) := by
  -- a next vertex below `v` must be added to `v` itself
  have hnext : ∀ k, v ≤ k → k < d.length → (∀ u, u ∈ lineage d k → v ∈ lineage d u → u ≠ v → u ∉ lineage d (k + 1)) →
      v ∈ lineage d (k + 1) → addedTo d (k + 1) = v := by
    intro k hk hlt hpath hin
    have hstep := lineage_step d hf (k + 1) (by omega)
    rw [hstep, List.mem_cons] at hin
    rcases hin with h | h
    · omega
    · by_contra hne
      have hm := (DepthFirst.at d hdf (k + 1) (by omega) (by omega)).2.1
      rw [show k + 1 - 1 = k by omega] at hm
      apply hpath _ hm h hne
      rw [hstep]
      exact List.mem_cons_of_mem _ (lineage_self d hf _)
  induction l generalizing k s with
  | nil =>
    refine ⟨s, k, rfl, hR, hk, hkn, hin, fun hlt hmem' => ?_⟩
    have := hall (k + 1) (by omega) (by omega) (hnext k hk hlt (hpath hlt) hmem')
    cases this
  | cons c l ih =>
    obtain ⟨hc1, hc2⟩ := hgt c List.mem_cons_self
    rw [List.pairwise_cons] at hsort
    rw [List.foldlM_cons]
    by_cases ht : addedTo d c = v
    · -- a vertex added to `v`: it is the next one
      have hvc : v ∈ lineage d c := by
        rw [lineage_step d hf c (by omega), ht]
        exact List.mem_cons_of_mem _ (lineage_self d hf v)
      have hck : c = k + 1 := by
        have h1 := lineage_interval d hf hdf v c hc2 hvc (k + 1) (by omega) (by omega)
        have h2 := hnext k hk (by omega) (hpath (by omega)) h1
        have h3 := hall (k + 1) (by omega) (by omega) h2
        rcases List.mem_cons.1 h3 with h3 | h3
        · exact h3.symm
        · have := hsort.1 _ h3; omega
      obtain ⟨s', k', e, hR', g1, g2, g3, g4⟩ := hT c s (by rw [show c - 1 = k by omega]; exact hR) (by omega) hc2 ht (by omega)
      rw [e]
      have hin' : ∀ w, v ≤ w → w ≤ k' → v ∈ lineage d w := by
        intro w h1 h2
        by_cases hwk : w ≤ k
        · exact hin w h1 hwk
        · exact lineage_trans d hf _ _ _ hvc (g3 w (by omega) h2)
      apply ih k' s' hR' (by omega) g2 hin'
      · intro hlt u hu hvu hne hu'
        have hck' := g3 k' (by omega) (Nat.le_refl _)
        rcases lineage_chain d hf c u k' hck' hu with h | h
        · exact g4 hlt (lineage_trans d hf _ _ _ h hu')
        · rw [lineage_step d hf c (by omega), ht, List.mem_cons] at h
          rcases h with rfl | h
          · exact g4 hlt hu'
          · have h1 := lineage_le d hf _ _ h
            have h2 := lineage_le d hf _ _ hvu
            omega
      · exact hsort.2
      · intro c' hc'
        refine ⟨?_, (hgt c' (List.mem_cons_of_mem _ hc')).2⟩
        by_contra hle
        have hlt := hsort.1 c' hc'
        have hcc' := g3 c' (by omega) (by omega)
        rw [lineage_step d hf c' (by omega), List.mem_cons] at hcc'
        rcases hcc' with h | h
        · omega
        · rcases hmem c' (List.mem_cons_of_mem _ hc') with h' | h'
          · rw [h'] at h
            have := lineage_le d hf _ _ h
            omega
          · exact (DepthFirst.at d hdf c' (by omega) (by have := (hgt c' (List.mem_cons_of_mem _ hc')).2; omega)).2.2.1 v h'
              (lineage_trans d hf _ _ _ hvc h)
      · intro c' hc'
        exact hmem c' (List.mem_cons_of_mem _ hc')
      · intro c' h1 h2 h3
        rcases List.mem_cons.1 (hall c' (by omega) h2 h3) with h | h
        · omega
        · exact h
    · -- a concatenation whose last vertex has not been made yet
      have hd : v ∈ (parentsAt d c).dropLast := by
        rcases hmem c List.mem_cons_self with h | h
        · exact absurd h ht
        · exact h
      have hdc := DepthFirst.at d hdf c (by omega) hc2
      have hp : k < addedTo d c := by
        by_contra hle
        have hlt : v < addedTo d c := by
          have hne : parentsAt d c ≠ [] := by intro h0; rw [h0] at hd; cases hd
          have hs := hdc.1
          rw [← List.dropLast_append_getLast hne, List.pairwise_append] at hs
          have := hs.2.2 v hd _ (List.mem_singleton.2 rfl)
          unfold addedTo
          rw [List.getLast?_eq_some_getLast hne]
          exact this
        exact hdc.2.2.1 v hd (hin _ (by omega) (by omega))
      obtain ⟨s', e, hR'⟩ := hN c k s hR hd hk hp
      rw [e]
      apply ih k s' hR' hk hkn hin hpath hsort.2
      · exact fun c' hc' => hgt c' (List.mem_cons_of_mem _ hc')
      · exact fun c' hc' => hmem c' (List.mem_cons_of_mem _ hc')
      · intro c' h1 h2 h3
        rcases List.mem_cons.1 (hall c' h1 h2 h3) with h | h
        · exact absurd (h ▸ h3) ht
        · exact h

/-- The loader's loop. `S k` is the state in which exactly the first `k` vertices have been made. -/
theorem edge_loop {σ : Type} (S : Nat → σ) (f : σ → Nat → Option σ) (v : Nat)
    (hT : ∀ c, 1 ≤ c → c ≤ d.length → addedTo d c = v → v < c → ∃ k, f (S (c - 1)) c = some (S k) ∧ c ≤ k ∧ k ≤ d.length ∧
      (∀ w, c ≤ w → w ≤ k → c ∈ lineage d w) ∧ (k < d.length → c ∉ lineage d (k + 1)))
    (hN : ∀ c k, v ∈ (parentsAt d c).dropLast → v ≤ k → k < addedTo d c → f (S k) c = some (S k))
    (l : List Nat) (k : Nat) (hk : v ≤ k) (hkn : k ≤ d.length) (hin : ∀ w, v ≤ w → w ≤ k → v ∈ lineage d w)
    (hpath : k < d.length → ∀ u, u ∈ lineage d k → v ∈ lineage d u → u ≠ v → u ∉ lineage d (k + 1))
    (hsort : l.Pairwise (· < ·)) (hgt : ∀ c ∈ l, k < c ∧ c ≤ d.length) (hmem : ∀ c ∈ l, addedTo d c = v ∨ v ∈ (parentsAt d c).dropLast)
    (hall : ∀ c, k < c → c ≤ d.length → addedTo d c = v → c ∈ l) :
    ∃ k', l.foldlM f (S k) = some (S k') ∧ v ≤ k' ∧ k' ≤ d.length ∧ (∀ w, v ≤ w → w ≤ k' → v ∈ lineage d w) ∧
      (k' < d.length → v ∉ lineage d (k' + 1)) := by
  obtain ⟨s', k', e, rfl, h⟩ := edge_loop_rel d hf hdf (fun s k => s = S k) f v
    (fun c s hs h1 h2 h3 h4 => by
      subst hs
      obtain ⟨k, h5, h6⟩ := hT c h1 h2 h3 h4
      exact ⟨S k, k, h5, rfl, h6⟩)
    (fun c k s hs h1 h2 h3 => by subst hs; exact ⟨S k, hN c k h1 h2 h3, rfl⟩) l k (S k) rfl hk hkn hin hpath hsort hgt hmem hall
  exact ⟨k', e, h⟩

end

/-! ### The loader -/

theorem setAll_core (x y : Vertex) (hc : SameCore y x) (hf : FlagsOk x) : y.setAll (settingsOf x) = some x := by
  obtain ⟨c1, c2, c3, c4, c5, c6, c7, c8⟩ := hc
  obtain ⟨a1, a2, a3, a4, a5, a6, a7, a8, a9, a10, a11, a12, a13, a14, a15, a16, a17⟩ := x
  obtain ⟨b1, b2, b3, b4, b5, b6, b7, b8, b9, b10, b11, b12, b13, b14, b15, b16, b17⟩ := y
  simp only at c1 c2 c3 c4 c5 c6 c7 c8
  subst c1; subst c2; subst c3; subst c4; subst c5; subst c6; subst c7; subst c8
  unfold FlagsOk Vertex.weighted at hf
  unfold Vertex.setAll settingsOf
  simp only at hf
  cases hw : (decide (b3 = LayerType.full) || decide (b3 = LayerType.convolution2dValid)) with
  | true =>
    have : b3 = LayerType.full ∨ b3 = LayerType.convolution2dValid := by simpa using hw
    rcases this with rfl | rfl <;> simp [Vertex.set, Vertex.weighted]
  | false =>
    obtain ⟨h1, h2, h3, h4⟩ := hf hw
    subst h1; subst h2; subst h3; subst h4
    simp [Vertex.set, Vertex.weighted, hw]

/-- `createdVertexes` when the first `k` vertices have been made with their own numbers. -/
def madeUpTo : Nat → List (Nat × Nat)
  | 0 => []
  | k + 1 => (k + 1, k + 1) :: madeUpTo k

theorem lookup_made (k w : Nat) : (madeUpTo k).lookup w = if 1 ≤ w ∧ w ≤ k then some w else none := by
  induction k with
  | zero =>
    rw [if_neg (by omega)]; rfl
  | succ k ih =>
    rw [madeUpTo, List.lookup_cons]
    by_cases h : w = k + 1
    · subst h
      rw [if_pos (by omega)]
      simp
    · have : (w == k + 1) = false := by simpa using h
      rw [this]
      simp only [ih]
      by_cases h1 : 1 ≤ w ∧ w ≤ k
      · rw [if_pos h1, if_pos (by omega)]
      · rw [if_neg h1, if_neg (by omega)]

/-- The first `k` vertices have been made. -/
def upTo (d : Dsl) (k : Nat) : Created := ⟨d.take k, madeUpTo k⟩

theorem vertexAt_take (d : Dsl) (k v : Nat) (h : v ≤ k) : vertexAt (d.take k) v = vertexAt d v := by
  unfold vertexAt
  split
  · rfl
  · rw [List.getElem?_take_of_lt (by omega)]

theorem take_succ_vertex (d : Dsl) (v : Nat) (x) (h : vertexAt d v = some x) : d.take (v - 1) ++ [x] = d.take v := by
  have hr := vertexAt_range d v x h
  unfold vertexAt at h
  rw [if_neg (by omega)] at h
  obtain ⟨k, rfl⟩ : ∃ k, v = k + 1 := ⟨v - 1, by omega⟩
  rw [List.take_add_one, show k + 1 - 1 = k by omega] at *
  rw [h]; rfl

theorem plain_some (k : LayerType) (i o : Shape) (out given : Bool) (a : ActivationType) (h : out = true → k = .full) :
    ∃ y, plain k i o out given a = some y := by
  unfold plain
  rw [if_neg (by rintro ⟨h1, h2⟩; exact h2 (h h1))]
  exact ⟨_, rfl⟩

theorem filtered_some (i : Shape) (f n : Nat) (out given : Bool) (a : ActivationType) :
    ∃ y, filtered .convolution2dValid i f n out given a = some y := by
  unfold filtered
  rw [if_neg (by rintro ⟨h1, h2⟩; exact h2 rfl)]
  exact ⟨_, rfl⟩

section
variable (d : Dsl) (m : Maps) (hm : Faithful d m) (hs : AllSound d) (hfit : ∀ v x, vertexAt d v = some x → Fits x.1) (hdf : DepthFirst d)
include hm

theorem Faithful.vertex (v : Nat) (x) (hv : vertexAt d v = some x) : m.vertexes.lookup v = some (vertexRow v x.1) := by
  rw [lookup_sorted _ ?_, hm.vertexes]
  · have hr := vertexAt_range d v x hv
    rw [List.mem_filterMap]
    refine ⟨v - 1, List.mem_range.2 (by omega), ?_⟩
    rw [show v - 1 + 1 = v by omega, hv]; rfl
  · rw [hm.vertexes, List.pairwise_filterMap]
    apply List.pairwise_lt_range.imp
    intro a b hab x hx y hy
    simp only [Option.map_eq_some_iff] at hx hy
    obtain ⟨_, _, rfl⟩ := hx
    obtain ⟨_, _, rfl⟩ := hy
    simp only; omega

theorem Faithful.edgeList (v : Nat) (h1 : 1 ≤ v) (h2 : v ≤ d.length) : (m.edges.lookup v).getD [] = children d v := by
  have hsorted : m.edges.Pairwise fun a b => a.1 < b.1 := by
    rw [hm.edges, List.pairwise_map]
    apply List.Pairwise.filter
    exact List.pairwise_lt_range.imp fun h => by simp only; omega
  by_cases hc : children d v = []
  · cases hl : m.edges.lookup v with
    | none => rw [hc]; rfl
    | some l =>
      rw [lookup_sorted _ hsorted, hm.edges] at hl
      simp only [List.mem_map, List.mem_filter, List.mem_range, Prod.mk.injEq] at hl
      obtain ⟨i, _, hi, rfl⟩ := hl
      rw [hi]; rfl
  · have : m.edges.lookup v = some (children d v) := by
      rw [lookup_sorted _ hsorted, hm.edges]
      simp only [List.mem_map, List.mem_filter, List.mem_range, Prod.mk.injEq]
      refine ⟨v - 1, ⟨by omega, ?_⟩, by omega, by rw [show v - 1 + 1 = v by omega]⟩
      rw [show v - 1 + 1 = v by omega]
      cases h : children d v with
      | nil => exact absurd h hc
      | cons a l => rfl
    rw [this]; rfl

/-- The keys of the edges that lead to `v` are its parents in ascending order. -/
theorem Faithful.incoming (v : Nat) (hsort : (parentsAt d v).Pairwise (· < ·)) (hf : Forward d) :
    (m.edges.filter fun e => e.2.contains v).map Prod.fst = parentsAt d v := by
  apply set_ext
  · rw [List.pairwise_map]
    apply List.Pairwise.filter
    rw [hm.edges, List.pairwise_map]
    apply List.Pairwise.filter
    exact List.pairwise_lt_range.imp fun h => by simp only; omega
  · exact hsort
  · intro p
    rw [hm.edges]
    simp only [List.mem_map, List.mem_filter, List.mem_range, List.contains_iff_mem]
    constructor
    · rintro ⟨e, ⟨⟨i, ⟨_, _⟩, rfl⟩, h2⟩, rfl⟩
      exact (mem_children d _ v).1 h2
    · intro hp
      have hc := (mem_children d p v).2 hp
      have h1 := hf v p hp
      have h2 := parentsAt_range d v p hp
      refine ⟨(p, children d p), ⟨⟨p - 1, ⟨by omega, ?_⟩, ?_⟩, hc⟩, rfl⟩
      · rw [show p - 1 + 1 = p by omega]
        cases h : children d p with
        | nil => rw [h] at hc; cases hc
        | cons a l => rfl
      · rw [show p - 1 + 1 = p by omega]

omit hm in
theorem mapM_lookup (l : List (Nat × List Nat)) (k : Nat) (h : ∀ p ∈ l.map Prod.fst, 1 ≤ p ∧ p ≤ k) :
    (l.mapM fun e => (madeUpTo k).lookup e.1) = some (l.map Prod.fst) := by
  induction l with
  | nil => rfl
  | cons e l ih =>
    rw [List.mapM_cons, lookup_made, if_pos (h e.1 (by simp)), ih fun p hp => h p (by simp only [List.map_cons, List.mem_cons]; exact Or.inr hp)]
    rfl

omit hm in
theorem mapM_lookup_none (l : List (Nat × List Nat)) (k p : Nat) (hp : p ∈ l.map Prod.fst) (hk : k < p) :
    (l.mapM fun e => (madeUpTo k).lookup e.1) = none := by
  induction l with
  | nil => cases hp
  | cons e l ih =>
    rw [List.map_cons, List.mem_cons] at hp
    rw [List.mapM_cons, lookup_made]
    rcases hp with rfl | hp
    · rw [if_neg (by omega)]; rfl
    · rw [ih hp]
      cases (if 1 ≤ e.1 ∧ e.1 ≤ k then some e.1 else none) <;> rfl

include hs hdf in
theorem remake_ok (v : Nat) (x : Vertex) (ps : List Nat) (hv : vertexAt d v = some (x, ps)) (parent : Option Nat)
    (hp : x.accepts = false → parent = some (addedTo d v)) :
    ∃ y, remake m (upTo d (v - 1)) v parent x = some (some (y, ps)) ∧ SameCore y x := by
  have hr := vertexAt_range d v _ hv
  have hps : parentsAt d v = ps := by unfold parentsAt; rw [hv]; rfl
  have hfw := hs.forward
  obtain ⟨hfl, hcase⟩ := hs v x ps hv
  unfold remake
  rcases hcase with ⟨h1, h2, i, h3, h4⟩ | ⟨h1, h2, p, z, i, h3, h4, h5, h6, h7⟩ | ⟨h1, h2, h3, h4, h5, h6, h7, h8, h9⟩
  · rw [if_pos h1, h3]
    dsimp only
    rcases h4 with ⟨h4, h5, h6⟩ | ⟨h4, h5, h6⟩
    · rw [if_neg (by omega)]
      obtain ⟨y, hy⟩ := plain_some x.kind i x.outShape x.output true x.act h6
      obtain ⟨g1, g2, g3, g4, g5, g6, g7, g8, _, _⟩ := plain_ok hy
      refine ⟨y, by rw [hy, h2]; rfl, by rw [g1, h1], g2, g3, g4, by rw [g5, h3], g6, by rw [g7, h4], by rw [g8, h5]⟩
    · rw [if_pos h4, h5]
      obtain ⟨y, hy⟩ := filtered_some i x.filters x.kernel x.output true x.act
      obtain ⟨g1, g2, g3, g4, g5, g6, g7, g8, _⟩ := filtered_ok rfl hy
      refine ⟨y, by rw [hy, h2]; rfl, by rw [g1, h1], g2, by rw [g3, h5], g4, by rw [g5, h3], by rw [g6, h6], g7, g8⟩
  · have hpar := hp h1
    have hadd : addedTo d v = p := by unfold addedTo; rw [hps, h3]; rfl
    rw [h1, hpar, hadd, h6]
    simp only [Bool.false_eq_true, if_false]
    rw [if_neg h2]
    rcases h7 with ⟨h7, h8, h9⟩ | ⟨h7, h8, h9, h10⟩
    · rw [if_neg (by omega), if_neg (by rintro ⟨a, b⟩; exact b (h9 a))]
      obtain ⟨y, hy⟩ := plain_some x.kind i x.outShape x.output false x.act h9
      obtain ⟨g1, g2, g3, g4, g5, g6, g7, g8, _, _⟩ := plain_ok hy
      refine ⟨y, by rw [hy, h3]; rfl, by rw [g1, h1], g2, g3, g4, by rw [g5, h6], g6, by rw [g7, h7], by rw [g8, h8]⟩
    · rw [if_pos h7]
      unfold upTo
      simp only
      rw [vertexAt_take d _ _ (by omega), h5, Option.bind_some, h8]
      obtain ⟨y, hy⟩ := filtered_some z.1.outShape x.filters x.kernel x.output false x.act
      obtain ⟨g1, g2, g3, g4, g5, g6, g7, g8, _⟩ := filtered_ok rfl hy
      refine ⟨y, by rw [hy, h3]; rfl, by rw [g1, h1], g2, by rw [g3, h8], g4, by rw [g5, h6, h9], by rw [g6, h10, h9], g7, g8⟩
  · have hpar := hp h1
    have hinc := hm.incoming d m v (DepthFirst.at d hdf v hr.1 hr.2).1 hfw
    have hpm : parentsOf m (upTo d (v - 1)) v = some ps := by
      unfold parentsOf upTo
      simp only
      rw [mapM_lookup _ _ ?_, hinc, hps]
      intro p hp
      rw [hinc] at hp
      have := hfw v p hp
      omega
    have hsh : outShapes (upTo d (v - 1)).dsl ps = some x.inShapes := by
      rw [← h8]
      apply outShapes_congr
      intro p hp
      unfold upTo
      simp only
      rw [vertexAt_take d _ _ (by have := h7 p hp; omega)]
    rw [h1, hpar]
    simp only [Bool.false_eq_true, if_false]
    rw [if_pos h2, hpm]
    simp only
    rw [hsh]
    refine ⟨concatenation x.inShapes, rfl, ?_⟩
    unfold concatenation
    exact ⟨by rw [h1], by rw [h3], by rw [h2], by rw [h4], rfl, by rw [h9], by rw [h5], by rw [h6]⟩

include hs hfit hdf in
theorem create_ok (fuel v : Nat) (h1 : 1 ≤ v) (h2 : v ≤ d.length) (hfuel : d.length < fuel + v) (parent : Option Nat)
    (hp : ∀ x, vertexAt d v = some x → x.1.accepts = false → parent = some (addedTo d v)) :
    ∃ k, create m fuel v parent (upTo d (v - 1)) = some (upTo d k) ∧ v ≤ k ∧ k ≤ d.length ∧
      (∀ w, v ≤ w → w ≤ k → v ∈ lineage d w) ∧ (k < d.length → v ∉ lineage d (k + 1)) := by
  have hfw := hs.forward
  induction fuel generalizing v parent with
  | zero => omega
  | succ fuel ih =>
    obtain ⟨⟨x, ps⟩, hv⟩ := vertexAt_some d v h1 h2
    have hps : parentsAt d v = ps := by unfold parentsAt; rw [hv]; rfl
    obtain ⟨y, hy, hcore⟩ := remake_ok d m hm hs hdf v x ps hv parent (hp _ hv)
    have hset := setAll_core x y hcore (hs v x ps hv).1
    have hstart : (⟨(upTo d (v - 1)).dsl ++ [(x, ps)], (v, (upTo d (v - 1)).dsl.length + 1) :: (upTo d (v - 1)).made⟩ : Created) = upTo d v := by
      unfold upTo
      simp only
      rw [take_succ_vertex d v _ hv, List.length_take, Nat.min_eq_left (by omega), show v - 1 + 1 = v by omega]
      obtain ⟨k, rfl⟩ : ∃ k, v = k + 1 := ⟨v - 1, by omega⟩
      rw [show k + 1 - 1 = k by omega]; rfl
    rw [create, hm.vertex d m v _ hv]
    simp only [Option.bind_some]
    rw [readVertex_row v x (hfit v _ hv)]
    simp only
    rw [hy]
    simp only
    rw [hset]
    simp only
    rw [hstart, hm.edgeList d m v h1 h2]
    have hnd : ∀ c, (parentsAt d c).Nodup := by
      intro c
      by_cases hc : 1 ≤ c ∧ c ≤ d.length
      · exact (DepthFirst.at d hdf c hc.1 hc.2).1.imp fun h => by omega
      · have : parentsAt d c = [] := by
          cases hl : parentsAt d c with
          | nil => rfl
          | cons p l =>
            have := parentsAt_range d c p (by rw [hl]; simp)
            exact absurd this hc
        rw [this]; exact List.nodup_nil
    apply edge_loop d hfw hdf (upTo d) _ v
    · -- a vertex added to `v`
      intro c hc1 hc2 hadd hlt
      obtain ⟨z, hz⟩ := vertexAt_some d c hc1 hc2
      rw [hm.vertex d m c z hz]
      simp only [Option.isNone_some, Bool.false_eq_true, if_false]
      have hlk : (upTo d (c - 1)).made.lookup v = some v := by
        unfold upTo; simp only; rw [lookup_made, if_pos (by omega)]
      rw [hlk]
      apply ih c hc1 hc2 (by omega)
      intro _ _ _
      rw [hadd]
    · -- a concatenation that has to wait
      intro c k hd hk hlt
      have hvp : v ∈ parentsAt d c := List.dropLast_subset _ hd
      have hcr := parentsAt_range d c v hvp
      obtain ⟨⟨z, qs⟩, hz⟩ := vertexAt_some d c hcr.1 hcr.2
      have hqs : parentsAt d c = qs := by unfold parentsAt; rw [hz]; rfl
      rw [hm.vertex d m c _ hz]
      simp only [Option.isNone_some, Bool.false_eq_true, if_false]
      have hlk : (upTo d k).made.lookup v = some v := by
        unfold upTo; simp only; rw [lookup_made, if_pos (by omega)]
      rw [hlk]
      have hvc := (hfw c v hvp).2
      obtain ⟨f, rfl⟩ : ∃ f, fuel = f + 1 := ⟨fuel - 1, by omega⟩
      rw [create, hm.vertex d m c _ hz]
      simp only [Option.bind_some]
      rw [readVertex_row c z (hfit c _ hz)]
      simp only
      have hkind : z.accepts = false ∧ z.kind = .concatenate := by
        rcases (hs c z qs hz).2 with ⟨_, g2, _⟩ | ⟨_, _, p, _, _, g3, _⟩ | ⟨g1, g2, _⟩
        · rw [hqs, g2] at hd; cases hd
        · rw [hqs, g3] at hd; cases hd
        · exact ⟨g1, g2⟩
      have hinc := hm.incoming d m c (DepthFirst.at d hdf c hcr.1 hcr.2).1 hfw
      have hne : parentsAt d c ≠ [] := by intro h0; rw [h0] at hvp; cases hvp
      have hlast : addedTo d c ∈ parentsAt d c := by
        unfold addedTo
        rw [List.getLast?_eq_some_getLast hne]
        exact List.getLast_mem hne
      have hpn : parentsOf m (upTo d k) c = none := by
        unfold parentsOf upTo
        simp only
        exact mapM_lookup_none _ k (addedTo d c) (by rw [hinc]; exact hlast) hlt
      unfold remake
      rw [hkind.1]
      simp only [Bool.false_eq_true, if_false]
      rw [if_pos hkind.2, hpn]
    · exact Nat.le_refl _
    · exact h2
    · intro w hw1 hw2
      have : w = v := by omega
      subst this
      exact lineage_self d hfw w
    · intro _ u hu hvu hne
      have a := lineage_le d hfw _ _ hu
      have b := lineage_le d hfw _ _ hvu
      omega
    · exact children_sorted d v hnd
    · intro c hc
      have := (mem_children d v c).1 hc
      exact ⟨(hfw c v this).2, (parentsAt_range d c v this).2⟩
    · intro c hc
      have hmc := (mem_children d v c).1 hc
      have hne : parentsAt d c ≠ [] := by intro h0; rw [h0] at hmc; cases hmc
      rw [← List.dropLast_append_getLast hne, List.mem_append, List.mem_singleton] at hmc
      rcases hmc with h | h
      · exact Or.inr h
      · left
        unfold addedTo
        rw [List.getLast?_eq_some_getLast hne, h]; rfl
    · intro c hc1 hc2 hadd
      apply (mem_children d v c).2
      have hne : parentsAt d c ≠ [] := by
        intro h0
        unfold addedTo at hadd
        rw [h0] at hadd
        simp at hadd
        omega
      unfold addedTo at hadd
      rw [List.getLast?_eq_some_getLast hne] at hadd
      simp only [Option.getD_some] at hadd
      rw [← hadd]
      exact List.getLast_mem hne

include hs hfit hdf in
/-- The loop over the inputs makes the whole description. -/
theorem create_all (hroot : Rooted d) :
    m.headVertexes.foldlM (fun s h => create m (d.length + 1) h none s) ⟨[], []⟩ = some (upTo d d.length) := by
  have hfw := hs.forward
  have hheads : ∀ c, c ∈ heads d ↔ 1 ≤ c ∧ c ≤ d.length ∧ addedTo d c = 0 := by
    intro c
    rw [mem_heads]
    constructor
    · rintro ⟨⟨x, ps⟩, hx, ha⟩
      have hr := vertexAt_range d c _ hx
      refine ⟨hr.1, hr.2, ?_⟩
      have hps : parentsAt d c = ps := by unfold parentsAt; rw [hx]; rfl
      rcases (hs c x ps hx).2 with ⟨_, rfl, _⟩ | ⟨h, _⟩ | ⟨h, _⟩
      · unfold addedTo; rw [hps]; rfl
      · simp only at ha; rw [h] at ha; cases ha
      · simp only at ha; rw [h] at ha; cases ha
    · rintro ⟨h1, h2, h3⟩
      obtain ⟨⟨x, ps⟩, hx⟩ := vertexAt_some d c h1 h2
      refine ⟨_, hx, hroot c _ hx ?_⟩
      have hps : parentsAt d c = ps := by unfold parentsAt; rw [hx]; rfl
      simp only
      by_contra hne
      have hlast : addedTo d c ∈ parentsAt d c := by
        unfold addedTo
        rw [hps, List.getLast?_eq_some_getLast hne]
        exact List.getLast_mem hne
      have := hfw c _ hlast
      omega
  obtain ⟨k, e, _, hkn, _, hout⟩ := edge_loop d hfw hdf (upTo d) (fun s h => create m (d.length + 1) h none s) 0
    (by
      intro c hc1 hc2 hadd _
      apply create_ok d m hm hs hfit hdf _ c hc1 hc2 (by omega)
      intro x hx ha
      obtain ⟨y, hy, hya⟩ := (mem_heads d c).1 ((hheads c).2 ⟨hc1, hc2, hadd⟩)
      rw [hx] at hy; cases hy
      rw [ha] at hya; cases hya)
    (by
      intro c k h
      have := hfw c 0 (List.dropLast_subset _ h)
      omega)
    (heads d) 0 (Nat.le_refl _) (by omega)
    (by intro w _ _; exact lineage_root d hfw w)
    (by
      intro _ u hu _ hne
      rw [lineage_zero d] at hu
      simp at hu
      exact absurd hu hne)
    (heads_sorted d)
    (by intro c hc; have := (hheads c).1 hc; omega)
    (by intro c hc; exact Or.inl ((hheads c).1 hc).2.2)
    (by intro c h1 h2 h3; exact (hheads c).2 ⟨by omega, h2, h3⟩)
  have hkd : k = d.length := by
    by_contra hne
    exact hout (by omega) (lineage_root d hfw _)
  rw [hm.heads]
  rw [hkd] at e
  exact e

end

theorem Faithful.count {d : Dsl} {m : Maps} (hm : Faithful d m) : m.vertexes.length = d.length := by
  rw [hm.vertexes]
  have : ∀ n, n ≤ d.length → ((List.range n).filterMap fun i => (vertexAt d (i + 1)).map fun x => (i + 1, vertexRow (i + 1) x.1)).length = n := by
    intro n
    induction n with
    | zero => intro _; rfl
    | succ n ih =>
      intro hn
      obtain ⟨x, hx⟩ := vertexAt_some d (n + 1) (by omega) hn
      rw [List.range_succ, List.filterMap_append, List.length_append, ih (by omega)]
      simp [hx]
  exact this _ (Nat.le_refl _)

end Verif.Dsl
