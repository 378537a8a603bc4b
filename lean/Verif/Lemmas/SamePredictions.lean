import Verif.Props.C109_LabelNetwork

/-! Layers other than the convolution read only the elements of their inputs: inputs with the same elements give results with the same elements. -/

namespace Verif.Wiring
open Verif Verif.Enums Verif.Dsl Verif.Views Verif.Layers Verif.Tensor

/-- Exceptions at the same time, and otherwise the same elements. -/
def SameResult (a b : Option (Tensor ℝ)) : Prop :=
  match a, b with
  | none, none => True
  | some t, some u => Same t u
  | _, _ => False

theorem SameResult.refl (a : Option (Tensor ℝ)) : SameResult a a := by
  cases a with
  | none => trivial
  | some t => exact Same.refl t

theorem SameResult.cases {a b : Option (Tensor ℝ)} (h : SameResult a b) : (a = none ∧ b = none) ∨ ∃ t u, a = some t ∧ b = some u ∧ Same t u := by
  cases a <;> cases b
  · exact Or.inl ⟨rfl, rfl⟩
  · exact h.elim
  · exact h.elim
  · exact Or.inr ⟨_, _, rfl, rfl, h⟩

/-- The normalization looks only at the elements of its input. -/
def Params.Local (p : Params) : Prop :=
  ∀ x y, Same x y → ∀ r c k, r < x.rows → c < x.cols → k < x.chans → p.normalized x r c k = p.normalized y r c k

theorem offset_bounds (a b k p : Nat) (h : p < a * b * k) : p % (b * a) / b < a ∧ p % (b * a) % b < b ∧ p / (b * a) < k := by
  have hab : 0 < b * a := by
    rcases Nat.eq_zero_or_pos (b * a) with h0 | h0
    · rw [Nat.mul_comm a b, h0, Nat.zero_mul] at h; omega
    · exact h0
  have hb : 0 < b := Nat.pos_of_mul_pos_right hab
  refine ⟨?_, Nat.mod_lt _ hb, ?_⟩
  · rw [Nat.div_lt_iff_lt_mul hb, Nat.mul_comm a b]
    exact Nat.mod_lt _ hab
  · rw [Nat.div_lt_iff_lt_mul hab, Nat.mul_comm k, Nat.mul_comm b a]
    exact h

theorem offsetGet_same (x y : Tensor ℝ) (h : Same x y) (p : Nat) (hp : p < x.size) : offsetGet x p = offsetGet y p := by
  obtain ⟨h1, h2, h3, h4⟩ := h
  obtain ⟨b1, b2, b3⟩ := offset_bounds _ _ _ _ hp
  unfold offsetGet
  rw [← h1, ← h2]
  exact h4 _ _ _ b1 b2 b3

theorem size_same {x y : Tensor ℝ} (h : Same x y) : x.size = y.size := by
  unfold Tensor.size
  rw [h.1, h.2.1, h.2.2.1]

theorem flatten_same (x y : Tensor ℝ) (h : Same x y) : Same (flattenForward x) (flattenForward y) := by
  unfold flattenForward
  by_cases hr : x.rows = 1
  · rw [if_pos hr, if_pos (h.1 ▸ hr)]
    exact h
  · rw [if_neg hr, if_neg (h.1 ▸ hr)]
    exact ⟨rfl, size_same h, rfl, fun r c k _ hc _ => offsetGet_same x y h c hc⟩

theorem matmul_same (x y w : Tensor ℝ) (h : Same x y) : SameResult (matmul x w) (matmul y w) := by
  unfold matmul
  obtain ⟨h1, h2, h3, h4⟩ := h
  rw [← h2, ← h3]
  split
  · trivial
  · split
    · trivial
    · refine ⟨h1, rfl, rfl, ?_⟩
      intro r c k hr hc hk
      show sumLoop x.cols _ = sumLoop x.cols _
      rw [sumLoop_eq_sum, sumLoop_eq_sum]
      apply Finset.sum_congr rfl
      intro j hj
      rw [h4 r j k hr (Finset.mem_range.1 hj) hk]

theorem add_same (x y b : Tensor ℝ) (h : Same x y) : SameResult (add x b) (add y b) := by
  unfold add zip
  obtain ⟨h1, h2, h3, h4⟩ := h
  rw [← h1, ← h2, ← h3]
  split
  · trivial
  · refine ⟨rfl, rfl, rfl, ?_⟩
    intro r c k hr hc hk
    show x.get r c k + _ = y.get r c k + _
    rw [h4 r c k hr hc hk]

theorem map_same (f : ℝ → ℝ) (x y : Tensor ℝ) (h : Same x y) : Same (map f x) (map f y) :=
  ⟨h.1, h.2.1, h.2.2.1, fun r c k hr hc hk => congrArg f (h.2.2.2 r c k hr hc hk)⟩

theorem elements_same (x y : Tensor ℝ) (h : Same x y) : Statistics.elements x = Statistics.elements y := by
  unfold Statistics.elements
  obtain ⟨h1, h2, h3, h4⟩ := h
  rw [← h1, ← h2, ← h3]
  apply List.flatMap_congr
  intro k hk
  apply List.flatMap_congr
  intro r hr
  apply List.map_congr_left
  intro c hc
  exact h4 r c k (List.mem_range.1 hr) (List.mem_range.1 hc) (List.mem_range.1 hk)

theorem activated_same (a : ActivationType) (x y : Tensor ℝ) (h : Same x y) : Same (activated a x) (activated a y) := by
  cases a
  case softmax =>
    show Same (Activation.softmax x) (Activation.softmax y)
    unfold Activation.softmax
    have hm : Statistics.max x = Statistics.max y := by unfold Statistics.max; rw [elements_same x y h]
    rw [← hm]
    cases Statistics.max x with
    | none => exact h
    | some m =>
      have hn := map_same Real.exp _ _ (map_same (fun v => v - m) x y h)
      have hs : Statistics.sum (map Real.exp (map (fun v => v - m) x)) = Statistics.sum (map Real.exp (map (fun v => v - m) y)) := by
        unfold Statistics.sum; rw [elements_same _ _ hn]
      simp only
      rw [← hs]
      exact map_same _ _ _ hn
  all_goals exact map_same _ _ _ h

/-- Lists of tensors with the same elements. -/
abbrev SameList := List.Forall₂ (Same (F := ℝ))

theorem concatLoop_same (k : Nat) (xs ys : List (Tensor ℝ)) (h : SameList xs ys) (hk : ∀ x ∈ xs, x.chans = k) (a b : Tensor ℝ) (hab : Same a b) (ha : a.chans = k) :
    SameResult (concatLoop a xs) (concatLoop b ys) := by
  induction h generalizing a b with
  | nil => exact hab
  | @cons x y xs ys hxy _ ih =>
    unfold concatLoop concatWide
    have hkx := hk x List.mem_cons_self
    obtain ⟨a1, a2, a3, a4⟩ := hab
    obtain ⟨x1, x2, x3, x4⟩ := hxy
    rw [← a1, ← x1]
    split
    · trivial
    · rename_i hr
      rw [not_not] at hr
      refine ih (fun z hz => hk z (List.mem_cons_of_mem _ hz)) _ _ ⟨rfl, by simp only; rw [a2, x2], a3, ?_⟩ ha
      intro r c j hr' hc hj
      simp only at hr' hc hj ⊢
      rw [← a2]
      split
      · exact a4 r c j hr' (by assumption) hj
      · exact x4 r _ j (hr ▸ hr') (by omega) (by omega)

theorem concat_same (k : Nat) (xs ys : List (Tensor ℝ)) (h : SameList xs ys) (hk : ∀ x ∈ xs, x.chans = k) :
    SameResult (concatForward xs) (concatForward ys) := by
  unfold concatForward
  cases h with
  | nil => trivial
  | cons ha ht =>
    cases ht with
    | nil => trivial
    | cons hb ht =>
      exact concatLoop_same k _ _ (.cons hb ht) (fun x hx => hk x (List.mem_cons_of_mem _ hx)) _ _ ha (hk _ List.mem_cons_self)

/-- Layers that take one input, other than the convolution, and whose normalization is local. -/
def Part.Simple : Part → Prop
  | .convolution _ => False
  | .normalize f => ∀ x y, Same x y → ∀ r c k, r < x.rows → c < x.cols → k < x.chans → f x r c k = f y r c k
  | _ => True

theorem part_same (a : Part) (h : a.Simple) (x y : Tensor ℝ) (hxy : Same x y) : SameResult (a.forward [x]) (a.forward [y]) := by
  cases a with
  | flatten => exact flatten_same x y hxy
  | full l =>
    show SameResult (((matmul x l.weights).map _).map _) (((matmul y l.weights).map _).map _)
    rcases (matmul_same x y l.weights hxy).cases with ⟨e1, e2⟩ | ⟨t, u, e1, e2, htu⟩
    · rw [e1, e2]; trivial
    · rw [e1, e2]; exact htu
  | concatenate => trivial
  | normalize f =>
    refine ⟨hxy.1, hxy.2.1, hxy.2.2.1, ?_⟩
    intro r c k hr hc hk
    exact h x y hxy r c k hr hc hk
  | dropout s => exact map_same _ _ _ hxy
  | convolution l => exact h.elim
  | bias b => exact add_same x y _ hxy
  | activation a => exact activated_same a x y hxy

theorem part_same_list (a : Part) (h : a.Simple) (k : Nat) (xs ys : List (Tensor ℝ)) (hxy : SameList xs ys) (hk : ∀ x ∈ xs, x.chans = k) :
    SameResult (a.forward xs) (a.forward ys) := by
  cases a
  case concatenate => exact concat_same k xs ys hxy hk
  all_goals
    cases hxy with
    | nil => trivial
    | cons h1 ht =>
      cases ht with
      | nil => exact part_same _ h _ _ h1
      | cons h2 ht => trivial

theorem chain_same (l : List Part) (h : ∀ a ∈ l, a.Simple) (k : Nat) (xs ys : List (Tensor ℝ)) (hxy : SameList xs ys) (hk : ∀ x ∈ xs, x.chans = k) :
    SameResult (chain l xs) (chain l ys) := by
  induction l generalizing xs ys k with
  | nil => trivial
  | cons a l ih =>
    have ha := part_same_list a (h a List.mem_cons_self) k xs ys hxy hk
    cases l with
    | nil => exact ha
    | cons b l =>
      show SameResult ((a.forward xs).bind _) ((a.forward ys).bind _)
      rcases ha.cases with ⟨e1, e2⟩ | ⟨t, u, e1, e2, htu⟩
      · rw [e1, e2]; trivial
      · rw [e1, e2]
        exact ih (fun c hc => h c (List.mem_cons_of_mem _ hc)) t.chans [t] [u] (.cons htu .nil) (by simp)

theorem parts_simple (p : Params) (hp : p.Local) (x : Vertex) (hx : x.kind ≠ .convolution2dValid) (l : List Part) (hl : parts p x = some l) :
    ∀ a ∈ l, a.Simple := by
  unfold parts at hl
  rw [Option.map_eq_some_iff] at hl
  obtain ⟨m, hm, rfl⟩ := hl
  have hm' : ∀ a ∈ m, a.Simple := by
    unfold mainParts at hm
    split at hm
    · rw [Option.map_eq_some_iff] at hm
      obtain ⟨i, _, rfl⟩ := hm
      intro a ha
      unfold flattenFirst at ha
      split at ha <;> simp at ha
      · rcases ha with rfl | rfl <;> trivial
      · subst ha; trivial
    · rw [Option.map_eq_some_iff] at hm
      obtain ⟨i, _, rfl⟩ := hm
      intro a ha
      rw [List.mem_singleton] at ha
      subst ha; trivial
    · cases hm
      intro a ha
      rw [List.mem_singleton] at ha
      subst ha; trivial
    · cases hm
      intro a ha
      rw [List.mem_singleton] at ha
      subst ha
      exact hp
    · rw [Option.map_eq_some_iff] at hm
      obtain ⟨i, _, rfl⟩ := hm
      intro a ha
      unfold flattenFirst at ha
      split at ha <;> simp at ha
      · rcases ha with rfl | rfl <;> trivial
      · subst ha; trivial
    · rename_i hk
      exact absurd hk hx
  intro a ha
  simp only [List.mem_append] at ha
  rcases ha with ((ha | ha) | ha) | ha
  · exact hm' a ha
  · split at ha
    · rw [List.mem_singleton] at ha; subst ha; trivial
    · cases ha
  · split at ha
    · rw [List.mem_singleton] at ha; subst ha; exact hp
    · cases ha
  · split at ha
    · rw [List.mem_singleton] at ha; subst ha; trivial
    · cases ha

theorem mapM_same (as bs : List (Option (Tensor ℝ))) (h : List.Forall₂ SameResult as bs) :
    (as.mapM id = none ∧ bs.mapM id = none) ∨ ∃ ts us, as = ts.map some ∧ as.mapM id = some ts ∧ bs.mapM id = some us ∧ SameList ts us := by
  induction h with
  | nil => exact Or.inr ⟨[], [], rfl, rfl, rfl, .nil⟩
  | @cons a b as bs hab _ ih =>
    rw [List.mapM_cons, List.mapM_cons]
    rcases hab.cases with ⟨rfl, rfl⟩ | ⟨t, u, rfl, rfl, htu⟩
    · exact Or.inl ⟨rfl, rfl⟩
    · rcases ih with ⟨e1, e2⟩ | ⟨ts, us, e0, e1, e2, h⟩
      · left
        rw [e1, e2]
        exact ⟨rfl, rfl⟩
      · right
        rw [e1, e2, e0]
        exact ⟨t :: ts, u :: us, rfl, rfl, rfl, .cons htu h⟩

/-- A vertex that gets tensors with equally many channels. -/
theorem vertex_same (d : Dsl) (p : Nat → Params) (v : Nat) (hp : (p v).Local) (x : Vertex × List Nat) (hx : vertexAt d v = some x)
    (hc : x.1.kind ≠ .convolution2dValid) (as bs : List (Option (Tensor ℝ))) (hab : List.Forall₂ SameResult as bs) (k : Nat) (hk : ∀ t, some t ∈ as → t.chans = k) :
    SameResult (vertexLayer d p v as) (vertexLayer d p v bs) := by
  unfold vertexLayer
  rw [hx, Option.bind_some, Option.bind_some]
  cases hl : parts (p v) x.1 with
  | none => trivial
  | some l =>
    rw [Option.bind_some, Option.bind_some]
    rcases mapM_same as bs hab with ⟨e1, e2⟩ | ⟨ts, us, e0, e1, e2, h⟩
    · rw [e1, e2]; trivial
    · rw [e1, e2]
      refine chain_same l (parts_simple _ hp _ hc l hl) k ts us h ?_
      intro t ht
      apply hk
      rw [e0]
      exact List.mem_map.2 ⟨t, ht, rfl⟩

/-- A vertex that flattens first: only the order of the values matters. -/
theorem flat_vertex_same (d : Dsl) (p : Nat → Params) (v : Nat) (hp : (p v).Local) (x : Vertex × List Nat) (hx : vertexAt d v = some x)
    (hc : x.1.kind ≠ .convolution2dValid) (l : List Part) (hl : parts (p v) x.1 = some (.flatten :: l)) (t u : Tensor ℝ) (h : Same (flattenForward t) (flattenForward u)) :
    SameResult (vertexLayer d p v [some t]) (vertexLayer d p v [some u]) := by
  have hs := parts_simple _ hp _ hc _ hl
  unfold vertexLayer
  rw [hx, Option.bind_some, Option.bind_some, hl]
  show SameResult (chain (.flatten :: l) [t]) (chain (.flatten :: l) [u])
  cases l with
  | nil => exact h
  | cons a l =>
    show SameResult (chain (a :: l) [flattenForward t]) (chain (a :: l) [flattenForward u])
    exact chain_same _ (fun b hb => hs b (List.mem_cons_of_mem _ hb)) (flattenForward t).chans _ _ (.cons h .nil) (by simp)

/-! ### Exchanged rows and columns -/

/-- The same values in the same order, with the numbers of rows and columns exchanged. -/
def Exchanged (t u : Tensor ℝ) : Prop := u.rows = t.cols ∧ u.cols = t.rows ∧ u.chans = t.chans ∧ values u = values t

theorem offsetGet_of_values (t u : Tensor ℝ) (h : values u = values t) (p : Nat) (hp : p < t.size) : offsetGet t p = offsetGet u p := by
  rw [values_eq_offsets, values_eq_offsets] at h
  have hl := congrArg List.length h
  rw [List.length_map, List.length_map, List.length_range, List.length_range] at hl
  have := congrArg (fun l => l[p]?) h
  simp only [List.getElem?_map, List.getElem?_range hp, List.getElem?_range (hl ▸ hp : p < u.size), Option.map_some] at this
  exact (Option.some.inj this).symm

theorem flat_row (t : Tensor ℝ) (h : t.rows = 1 → t.chans = 1) : Same (flattenForward t) (rowFlatten t) := by
  unfold flattenForward
  by_cases hr : t.rows = 1
  · rw [if_pos hr]
    have hk := h hr
    refine ⟨hr, ?_, hk, ?_⟩
    · show t.cols = t.size
      unfold Tensor.size
      rw [hr, hk, Nat.one_mul, Nat.mul_one]
    · intro r c k h1 h2 h3
      have e1 : r = 0 := by omega
      have e2 : k = 0 := by omega
      subst e1 e2
      show _ = offsetGet t c
      have := C29_offset_get t 0 c 0 (by omega) h2
      unfold position at this
      rw [← this]
      simp
  · rw [if_neg hr]
    exact Same.refl _

theorem exchanged_flat (t u : Tensor ℝ) (h : Exchanged t u) (h1 : t.rows = 1 → t.chans = 1) (h2 : t.cols = 1 → t.chans = 1) :
    Same (flattenForward t) (flattenForward u) := by
  obtain ⟨a, b, c, e⟩ := h
  refine Same.trans (flat_row t h1) (Same.trans ?_ (Same.symm (flat_row u (by rw [a, c]; exact h2))))
  refine ⟨rfl, ?_, rfl, fun _ p _ _ hp _ => offsetGet_of_values t u e p hp⟩
  show t.size = u.size
  unfold Tensor.size
  rw [a, b, c, Nat.mul_comm t.cols]

/-- A single value. -/
theorem exchanged_one (t u : Tensor ℝ) (h : Exchanged t u) (h1 : t.rows = 1) (h2 : t.cols = 1) (h3 : t.chans = 1) : Same t u := by
  obtain ⟨a, b, c, e⟩ := h
  refine ⟨by omega, by omega, by omega, ?_⟩
  intro r s k hr hs hk
  have e1 : r = 0 := by omega
  have e2 : s = 0 := by omega
  have e3 : k = 0 := by omega
  subst e1 e2 e3
  have := offsetGet_of_values t u e 0 (by unfold Tensor.size; rw [h1, h2, h3]; decide)
  simpa [offsetGet] using this

end Verif.Wiring
