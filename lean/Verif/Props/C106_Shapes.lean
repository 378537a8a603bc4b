import Verif.Lemmas.Wiring
import Verif.Props.C55_C58_Graph
import Verif.Props.C29_C32_Views

/-!
C106: a built network maps inputs of the declared shapes to outputs of the declared shapes.
-/

namespace Verif.Wiring
open Verif Verif.Dsl Verif.Enums Verif.Views Verif.Layers

/-- A tensor of the given shape. -/
def HasShape (t : Tensor ℝ) (s : Shape) : Prop := t.rows = s.rows ∧ t.cols = s.cols ∧ t.chans = s.chans

/-- Which declared shapes the layers of a vertex can work with: a full layer needs an input with several rows, which is flattened, or a single row with a
single channel, and has one row and channel of output; a convolution needs a kernel that fits; a flatten layer leaves single rows alone; normalization and dropout
are declared to keep the shape; concatenated inputs need single rows and channels. Sizes are below 2^64. -/
def FitsVertex (x : Vertex) : Prop :=
  match x.kind with
  | .full => x.outShape.rows = 1 ∧ x.outShape.chans = 1 ∧ x.outShape.cols < 2 ^ 64 ∧
      ∀ i ∈ x.inShapes, (1 < i.rows ∨ (i.rows = 1 ∧ i.chans = 1)) ∧ i.rows * i.cols * i.chans < 2 ^ 64
  | .convolution2dValid => 0 < x.filters ∧ ∀ i ∈ x.inShapes, 0 < i.chans ∧ x.kernel ≤ i.rows ∧ x.kernel ≤ i.cols ∧ i.rows < 2 ^ 64
  | .flatten => ∀ i ∈ x.inShapes, x.outShape = if i.rows = 1 then i else ⟨1, i.rows * i.cols * i.chans, 1⟩
  | .normalize => ∀ i ∈ x.inShapes, x.outShape = i
  | .dropout => ∀ i ∈ x.inShapes, x.outShape = i
  | .concatenate => 2 ≤ x.inShapes.length ∧ (∀ i ∈ x.inShapes, i.rows = 1 ∧ i.chans = 1) ∧ (x.inShapes.map Shape.cols).sum < 2 ^ 64

instance (x : Vertex) : Decidable (FitsVertex x) := by unfold FitsVertex; split <;> infer_instance

/-- All elements in one row. -/
def flat (s : Shape) : Shape := ⟨1, s.rows * s.cols * s.chans, 1⟩

/-- A dropout layer on several rows, which flattens what it gets although it is declared to keep the shape. -/
def flattens (x : Vertex) : Prop := x.kind = .dropout ∧ 1 < x.outShape.rows

instance (x : Vertex) : Decidable (flattens x) := by unfold flattens; infer_instance

/-- The shape a vertex delivers: the declared one, except for these dropout layers. -/
def delivered (x : Vertex) : Shape := if flattens x then flat x.outShape else x.outShape

/-- Layers that work the same way on flattened inputs with several rows. -/
def takesFlat (x : Vertex) : Prop := x.kind = .full ∨ x.kind = .flatten ∨ x.kind = .dropout

instance (x : Vertex) : Decidable (takesFlat x) := by unfold takesFlat; infer_instance

/-- The declared shapes fit together: every vertex can work with its shapes, its declared inputs are the declared outputs of the vertices it was added to, dropout
layers on several rows are followed only by layers that flatten, too, and outputs of the network have no further layers. -/
def Fits (d : Dsl) : Prop :=
  (∀ e ∈ d, FitsVertex e.1 ∧ (e.2 ≠ [] → outShapes d e.2 = some e.1.inShapes) ∧
    ∀ q ∈ e.2, ((vertexAt d q).map fun y => decide (flattens y.1)) = some true → takesFlat e.1) ∧
    ∀ v ∈ (List.range d.length).map (· + 1), isOut d v = true → children d v = []

instance (d : Dsl) : Decidable (Fits d) := by unfold Fits; infer_instance

theorem vertexAt_mem (d : Dsl) (v : Nat) (x : Vertex × List Nat) (h : vertexAt d v = some x) : x ∈ d := by
  unfold vertexAt at h
  split at h
  · cases h
  · exact List.mem_of_getElem? h

/-! ### Single layers -/

theorem flatten_shape (x : Tensor ℝ) (s : Shape) (h : HasShape x s) :
    HasShape (flattenForward x) (if s.rows = 1 then s else ⟨1, s.rows * s.cols * s.chans, 1⟩) := by
  obtain ⟨h1, h2, h3⟩ := h
  unfold flattenForward
  by_cases hr : s.rows = 1
  · rw [if_pos (by omega), if_pos hr]
    exact ⟨h1, h2, h3⟩
  · rw [if_neg (by omega), if_neg hr]
    refine ⟨rfl, ?_, rfl⟩
    show x.rows * x.cols * x.chans = s.rows * s.cols * s.chans
    rw [h1, h2, h3]

theorem activated_shape (a : ActivationType) (x : Tensor ℝ) (s : Shape) (h : HasShape x s) : HasShape (activated a x) s := by
  cases a
  case softmax =>
    show HasShape (Activation.softmax x) s
    unfold Activation.softmax
    cases Statistics.max x <;> exact h
  all_goals exact h

theorem drain_shape (l : List (Tensor ℝ)) (s : Shape) (hl : l ≠ []) (h : ∀ t ∈ l, HasShape t s) : ∃ t, drain l = some t ∧ HasShape t s := by
  cases l with
  | nil => exact absurd rfl hl
  | cons x l =>
    have hx := h x List.mem_cons_self
    have hl' : ∀ t ∈ l, HasShape t s := fun t ht => h t (List.mem_cons_of_mem _ ht)
    clear h hl
    show ∃ t, l.foldlM (fun acc y => add acc y) x = some t ∧ HasShape t s
    induction l generalizing x with
    | nil => exact ⟨x, rfl, hx⟩
    | cons y l ih =>
      have hy := hl' y List.mem_cons_self
      rw [List.foldlM_cons]
      have he : add x y = some ⟨x.rows, x.cols, x.chans, fun r c k => x.get r c k + y.get r c k⟩ := by
        unfold add zip
        rw [if_neg]
        rw [hx.1, hx.2.1, hx.2.2, hy.1, hy.2.1, hy.2.2]
        simp
      rw [he]
      exact ih _ hx fun t ht => hl' t (List.mem_cons_of_mem _ ht)

theorem wrap_sub (n k : Nat) (hk : k < 2 ^ 64) : (n + 1 + (2 ^ 64 - k)) % 2 ^ 64 = wrap (n + 2 ^ 64 - wrap k + 1) := by
  unfold wrap
  revert hk
  generalize 2 ^ 64 = N
  intro hk
  rw [Nat.mod_eq_of_lt hk]
  congr 1
  omega

theorem mapM_all {A B : Type} (f : A → Option B) (P : B → Prop) (l : List A) (h : ∀ a ∈ l, ∃ b, f a = some b ∧ P b) :
    ∃ bs, l.mapM f = some bs ∧ bs.length = l.length ∧ ∀ b ∈ bs, P b := by
  induction l with
  | nil => exact ⟨[], rfl, rfl, by simp⟩
  | cons a l ih =>
    obtain ⟨b, h1, h2⟩ := h a List.mem_cons_self
    obtain ⟨bs, h3, h4, h5⟩ := ih fun a ha => h a (List.mem_cons_of_mem _ ha)
    refine ⟨b :: bs, ?_, by simp [h4], ?_⟩
    · rw [List.mapM_cons, h1, h3]; rfl
    · intro c hc
      rcases List.mem_cons.1 hc with rfl | hc
      · exact h2
      · exact h5 c hc

theorem convolution_shape (x : Tensor ℝ) (i : Shape) (filters kernel : Nat) (ker : Nat → Nat → Nat → Nat → ℝ) (hx : HasShape x i) (hf : 0 < filters)
    (hd : 0 < i.chans) (hk : kernel < 2 ^ 64) :
    ∃ t, (Conv.forward ⟨(List.range filters).map fun f => ⟨kernel, kernel, i.chans, ker f⟩, i.rows, i.cols, i.chans, 0, none, [], []⟩ x false).map (·.1) = some t ∧
      HasShape t (convOut i filters kernel) := by
  unfold Conv.forward
  simp only [List.length_map, List.length_range, Option.map_map]
  have hfilter : ∀ e ∈ ((List.range filters).map fun f => (⟨kernel, kernel, i.chans, ker f⟩ : Tensor ℝ)).zipIdx,
      ∃ t, filterOut i.chans filters x e.1 e.2 = some t ∧ HasShape t (convOut i filters kernel) := by
    intro e he
    have hw : e.1.rows = kernel ∧ e.1.cols = kernel := by
      have := List.fst_mem_of_mem_zipIdx he
      rw [List.mem_map] at this
      obtain ⟨f, _, hf⟩ := this
      rw [← hf]
      exact ⟨rfl, rfl⟩
    obtain ⟨t, h1, h2⟩ := drain_shape ((List.range i.chans).map fun k => validCorrelation (channelTo x k) (channelTo e.1 k))
      ⟨(convOut i filters kernel).rows, (convOut i filters kernel).cols, 1⟩ (by simp; omega) (by
        intro t ht
        rw [List.mem_map] at ht
        obtain ⟨k, _, rfl⟩ := ht
        refine ⟨?_, ?_, rfl⟩
        · show (x.rows + 1 + (2 ^ 64 - e.1.rows)) % 2 ^ 64 = _
          rw [hw.1, hx.1]
          exact wrap_sub i.rows kernel hk
        · show (x.cols + 1 + (2 ^ 64 - e.1.cols)) % 2 ^ 64 = _
          rw [hw.2, hx.2.1]
          exact wrap_sub i.cols kernel hk)
    refine ⟨sumToChannel t e.2 filters, ?_, h2.1, h2.2.1, rfl⟩
    unfold filterOut
    rw [h1]; rfl
  obtain ⟨ts, e1, e2, e3⟩ := mapM_all _ _ _ hfilter
  have hne : ts ≠ [] := by
    intro h0
    rw [h0] at e2
    simp at e2
    omega
  obtain ⟨t, h1, h2⟩ := drain_shape ts _ hne e3
  refine ⟨t, ?_, h2⟩
  have e1' : (((List.range filters).map fun f => (⟨kernel, kernel, i.chans, ker f⟩ : Tensor ℝ)).zipIdx.mapM fun w => filterOut i.chans filters x w.1 w.2) = some ts := e1
  rw [e1', Option.bind_some, h1]
  rfl

theorem concat_shape (xs : List (Tensor ℝ)) (hl : 2 ≤ xs.length) (h : ∀ x ∈ xs, x.rows = 1 ∧ x.chans = 1) :
    ∃ t, concatForward xs = some t ∧ HasShape t ⟨1, (xs.map (·.cols)).sum, 1⟩ := by
  match xs, hl with
  | a :: b :: ts, _ =>
    obtain ⟨v, h1, h2, h3, h4, _⟩ := C31_concat a b ts (fun t ht => by
      rw [(h t (List.mem_cons_of_mem _ ht)).1, (h a List.mem_cons_self).1])
    exact ⟨v, h1, by rw [h2, (h a List.mem_cons_self).1], h4, by rw [h3, (h a List.mem_cons_self).2]⟩

/-! ### The layers of a vertex -/

theorem chain_cons (a : Part) (l : List Part) (ins : List (Tensor ℝ)) (y : Tensor ℝ) (h : a.forward ins = some y) (hl : l ≠ []) :
    chain (a :: l) ins = chain l [y] := by
  cases l with
  | nil => exact absurd rfl hl
  | cons b l => simp [chain, h]

theorem chain_append (l : List Part) (m : List Part) (ins : List (Tensor ℝ)) (y : Tensor ℝ) (h : chain l ins = some y) (hm : m ≠ []) :
    chain (l ++ m) ins = chain m [y] := by
  induction l generalizing ins with
  | nil => simp [chain] at h
  | cons a l ih =>
    cases l with
    | nil =>
      rw [List.cons_append, List.nil_append]
      exact chain_cons a m ins y h hm
    | cons b l =>
      rw [chain] at h
      simp only [Option.bind_eq_some_iff] at h
      obtain ⟨z, h1, h2⟩ := h
      rw [List.cons_append, chain_cons a (b :: l ++ m) ins z h1 (by simp)]
      exact ih [z] h2
      simp

/-- Layers that keep the shape `s`. -/
theorem chain_keep (l m : List Part) (s : Shape) (ins : List (Tensor ℝ)) (y : Tensor ℝ) (h : chain l ins = some y) (hy : HasShape y s)
    (hm : ∀ a ∈ m, ∀ x, HasShape x s → ∃ z, a.forward [x] = some z ∧ HasShape z s) : ∃ z, chain (l ++ m) ins = some z ∧ HasShape z s := by
  induction m generalizing l y with
  | nil => exact ⟨y, by rw [List.append_nil]; exact h, hy⟩
  | cons a m ih =>
    obtain ⟨z, h1, h2⟩ := hm a List.mem_cons_self y hy
    have := ih (l ++ [a]) z (by rw [chain_append l [a] ins y h (by simp)]; exact h1) h2 fun b hb => hm b (List.mem_cons_of_mem _ hb)
    rw [List.append_assoc] at this
    exact this

/-- Bias, normalization and activation keep the declared output shape; without bias, any shape. -/
theorem rest_keeps (p : Params) (x : Vertex) (s : Shape) (hs : x.bias = true → s = x.outShape) : ∀ a ∈ (if x.bias then [Part.bias ⟨⟨x.outShape.rows, x.outShape.cols, x.outShape.chans, p.bias⟩, 0, []⟩] else []) ++
      (if x.norm then [Part.normalize p.normalized] else []) ++ (if x.weighted then [Part.activation x.act] else []),
    ∀ t, HasShape t s → ∃ z, a.forward [t] = some z ∧ HasShape z s := by
  intro a ha t ht
  simp only [List.mem_append] at ha
  rcases ha with (ha | ha) | ha
  · split at ha
    · rename_i hb
      have hs := hs hb
      subst hs
      rw [List.mem_singleton] at ha
      subst ha
      refine ⟨⟨t.rows, t.cols, t.chans, fun r c k => t.get r c k + p.bias r c k⟩, ?_, ht⟩
      show zip (· + ·) t _ = some _
      unfold zip
      rw [if_neg]
      simp [ht.1, ht.2.1, ht.2.2]
    · cases ha
  · split at ha
    · rw [List.mem_singleton] at ha
      subst ha
      exact ⟨_, rfl, ht⟩
    · cases ha
  · split at ha
    · rw [List.mem_singleton] at ha
      subst ha
      exact ⟨_, rfl, activated_shape _ _ _ ht⟩
    · cases ha

theorem wrapped_small (s : Shape) (h : s.rows * s.cols * s.chans < 2 ^ 64) : wrapped s = s.rows * s.cols * s.chans := Nat.mod_eq_of_lt h

/-- The layers for the kind of a vertex with one input. -/
theorem main_shape (p : Params) (x : Vertex) (i : Shape) (hi : x.inShapes = [i]) (hfit : FitsVertex x) (hk : x.kind ≠ .concatenate)
    (hconv : x.kind = .convolution2dValid → x.outShape = convOut i x.filters x.kernel) (t : Tensor ℝ)
    (ht : HasShape t i ∨ (1 < i.rows ∧ HasShape t (flat i) ∧ takesFlat x)) :
    ∃ l z, mainParts p x = some l ∧ chain l [t] = some z ∧ HasShape z (delivered x) := by
  have hplain : x.kind ≠ .dropout → delivered x = x.outShape := fun h => if_neg fun h' => h h'.1
  have hflat : 1 < i.rows → HasShape (flattenForward t) (flat i) := by
    intro hr
    rcases ht with ht | ⟨_, ht, _⟩
    · have := flatten_shape t i ht
      rw [if_neg (by omega)] at this
      exact this
    · have := flatten_shape t (flat i) ht
      rw [if_pos (show (flat i).rows = 1 from rfl)] at this
      exact this
  have hone : (takesFlat x → i.rows ≤ 1) → HasShape t i := by
    intro h
    rcases ht with ht | ⟨h1, _, h2⟩
    · exact ht
    · exact absurd (h h2) (by omega)
  unfold mainParts
  unfold FitsVertex at hfit
  cases hkind : x.kind with
  | full =>
    rw [hplain (by rw [hkind]; decide)]
    rw [hkind] at hfit
    simp only at hfit ⊢
    obtain ⟨f1, f2, f3, f4⟩ := hfit
    obtain ⟨f5, f6⟩ := f4 i (by rw [hi]; simp)
    rw [hi]
    simp only [List.head?_cons, Option.map_some]
    have hmul : ∀ y : Tensor ℝ, HasShape y ⟨1, i.rows * i.cols * i.chans, 1⟩ →
        ∃ z, Part.forward (.full ⟨⟨wrapped i, wrapped x.outShape, 1, fun r c _ => p.weight r c⟩, 0, none, [], []⟩) [y] = some z ∧ HasShape z x.outShape := by
      intro y hy
      obtain ⟨y1, y2, y3⟩ := hy
      simp only at y1 y2 y3
      have hm : matmul y ⟨wrapped i, wrapped x.outShape, 1, fun r c _ => p.weight r c⟩ =
          some ⟨y.rows, wrapped x.outShape, y.chans, fun r c k => sumLoop y.cols fun j => y.get r j k * p.weight j c⟩ := by
        unfold matmul
        rw [if_neg (by rw [wrapped_small i f6]; simpa using y2), if_neg (by simpa using y3)]
      refine ⟨⟨y.rows, wrapped x.outShape, y.chans, fun r c k => sumLoop y.cols fun j => y.get r j k * p.weight j c⟩, ?_, ?_, ?_, ?_⟩
      · show ((matmul y _).map _).map _ = _
        rw [hm]; rfl
      · show y.rows = _; rw [y1, f1]
      · show wrapped x.outShape = _
        rw [wrapped_small _ (by rw [f1, f2]; simpa using f3), f1, f2]; simp
      · show y.chans = _; rw [y3, f2]
    unfold flattenFirst
    by_cases hr : 1 < i.rows
    · rw [if_pos hr]
      obtain ⟨z, h1, h2⟩ := hmul _ (hflat hr)
      exact ⟨_, z, rfl, by rw [List.singleton_append, chain_cons _ _ _ _ rfl (by simp)]; exact h1, h2⟩
    · rw [if_neg hr]
      have h1 : i.rows = 1 := by omega
      have h2 : i.chans = 1 := by omega
      have ht := hone fun _ => by omega
      obtain ⟨z, h3, h4⟩ := hmul t (by rw [h1, h2]; exact ⟨by rw [ht.1, h1], by simpa using ht.2.1, by rw [ht.2.2, h2]⟩)
      exact ⟨_, z, rfl, h3, h4⟩
  | convolution2dValid =>
    have ht := hone fun h => by rcases h with h | h | h <;> rw [hkind] at h <;> cases h
    rw [hplain (by rw [hkind]; decide)]
    rw [hkind] at hfit
    simp only at hfit ⊢
    obtain ⟨f1, f2⟩ := hfit
    obtain ⟨f3, f4, f5, f6⟩ := f2 i (by rw [hi]; simp)
    rw [hi]
    simp only [List.head?_cons, Option.map_some]
    obtain ⟨z, h1, h2⟩ := convolution_shape t i x.filters x.kernel p.kernel ht f1 f3 (Nat.lt_of_le_of_lt f4 f6)
    exact ⟨_, z, rfl, h1, by rw [hconv hkind]; exact h2⟩
  | concatenate => exact absurd hkind hk
  | flatten =>
    rw [hkind] at hfit
    simp only at hfit ⊢
    refine ⟨_, _, rfl, rfl, ?_⟩
    rw [hplain (by rw [hkind]; decide), hfit i (by rw [hi]; simp)]
    by_cases hr : 1 < i.rows
    · rw [if_neg (by omega)]
      exact hflat hr
    · exact flatten_shape t i (hone fun _ => by omega)
  | normalize =>
    rw [hkind] at hfit
    simp only at hfit ⊢
    have ht := hone fun h => by rcases h with h | h | h <;> rw [hkind] at h <;> cases h
    refine ⟨_, _, rfl, rfl, ?_⟩
    rw [hplain (by rw [hkind]; decide), hfit i (by rw [hi]; simp)]
    exact ht
  | dropout =>
    rw [hkind] at hfit
    simp only at hfit ⊢
    have f1 := hfit i (by rw [hi]; simp)
    rw [hi]
    simp only [List.head?_cons, Option.map_some]
    unfold flattenFirst
    by_cases hr : 1 < i.rows
    · rw [if_pos hr]
      refine ⟨_, _, rfl, rfl, ?_⟩
      have : delivered x = flat i := by
        unfold delivered
        rw [if_pos ⟨hkind, by rw [f1]; exact hr⟩, f1]
      rw [this]
      exact hflat hr
    · rw [if_neg hr]
      refine ⟨_, _, rfl, rfl, ?_⟩
      have : delivered x = i := by
        unfold delivered
        rw [if_neg (by rintro ⟨_, h⟩; rw [f1] at h; exact hr h), f1]
      rw [this]
      exact hone fun _ => by omega

theorem vertex_shape (p : Params) (x : Vertex) (i : Shape) (hi : x.inShapes = [i]) (hfit : FitsVertex x) (hk : x.kind ≠ .concatenate)
    (hconv : x.kind = .convolution2dValid → x.outShape = convOut i x.filters x.kernel) (hflags : FlagsOk x) (t : Tensor ℝ)
    (ht : HasShape t i ∨ (1 < i.rows ∧ HasShape t (flat i) ∧ takesFlat x)) :
    ∃ l z, parts p x = some l ∧ chain l [t] = some z ∧ HasShape z (delivered x) := by
  obtain ⟨l, z, h1, h2, h3⟩ := main_shape p x i hi hfit hk hconv t ht
  obtain ⟨z', h4, h5⟩ := chain_keep l _ (delivered x) [t] z h2 h3 (rest_keeps p x _ (by
    intro hb
    unfold delivered
    rw [if_neg]
    rintro ⟨h, _⟩
    have := (hflags (by unfold Vertex.weighted; rw [h]; rfl)).2.1
    rw [hb] at this
    cases this))
  refine ⟨_, z', by unfold parts; rw [h1]; rfl, ?_, h5⟩
  rw [← List.append_assoc, ← List.append_assoc] at h4
  exact h4

/-! ### Networks -/

theorem rooted_of_fits (d : Dsl) (hs : AllSound d) (hf : Fits d) : Rooted d := by
  intro v x hx hps
  obtain ⟨x, ps⟩ := x
  simp only at hps ⊢
  subst hps
  rcases (hs v x [] hx).2 with ⟨h, _⟩ | ⟨_, _, p, _, _, h, _⟩ | ⟨_, hk, _, _, _, _, _, ho, _⟩
  · exact h
  · cases h
  · have := (hf.1 _ (vertexAt_mem d v _ hx)).1
    unfold FitsVertex at this
    rw [hk] at this
    simp only at this
    have hnil : ([] : List Shape) = x.inShapes := Option.some.inj ho
    rw [← hnil] at this
    exact absurd this.1 (by simp)

/-- The network of a description is well formed. -/
theorem wellFormed (d : Dsl) (hs : AllSound d) (hr : Rooted d) (w : Wires) (hn : w.seen.Nodup) (hseen : ∀ v, v ∈ w.seen ↔ 1 ≤ v ∧ v ≤ d.length)
    (hp : w.conns.Perm (w.seen.flatMap (edgesOf d))) :
    Graph.WellFormed w.conns (heads d) id d.length ∧ (∀ v, 1 ≤ v → v ≤ d.length → Graph.IsNode w.conns (heads d) v) ∧
      ∀ e, e < w.conns.length → Graph.src w.conns e ∈ parentsAt d (Graph.dst w.conns e) := by
  have hd := hs.forward
  have hedge : ∀ e, e < w.conns.length → Graph.src w.conns e ∈ parentsAt d (Graph.dst w.conns e) := by
    intro e he
    have : Graph.src w.conns e ∈ (Graph.inputs w.conns (Graph.dst w.conns e)).map (Graph.src w.conns) :=
      List.mem_map_of_mem ((Graph.mem_inputs _ _ _).2 ⟨he, rfl⟩)
    exact (sources_perm d hd w hn hseen hp _).mem_iff.1 this
  have hnode : ∀ v, 1 ≤ v → v ≤ d.length → Graph.IsNode w.conns (heads d) v := by
    intro v h1 h2
    obtain ⟨x, hx⟩ := vertexAt_some d v h1 h2
    by_cases hps : x.2 = []
    · exact Or.inl ((mem_heads d v).2 ⟨x, hx, hr v x hx hps⟩)
    · obtain ⟨p, ps, hpl⟩ := List.exists_cons_of_ne_nil hps
      have hpm : p ∈ parentsAt d v := by unfold parentsAt; rw [hx]; simp [hpl]
      have := (sources_perm d hd w hn hseen hp v).mem_iff.2 hpm
      rw [List.mem_map] at this
      obtain ⟨e, he, _⟩ := this
      exact Or.inr ⟨e, (Graph.mem_inputs _ _ _).1 he⟩
  refine ⟨⟨(heads_sorted d).imp fun h => Nat.ne_of_lt h, ?_, ?_, ?_⟩, hnode, hedge⟩
  · intro h hh e he hdst
    have hm := hedge e he
    rw [hdst] at hm
    obtain ⟨x, hx, ha⟩ := (mem_heads d h).1 hh
    obtain ⟨x, ps⟩ := x
    unfold parentsAt at hm
    rw [hx] at hm
    simp only [Option.map_some, Option.getD_some] at hm ha
    rcases (hs h x ps hx).2 with ⟨_, rfl, _⟩ | ⟨h', _⟩ | ⟨h', _⟩
    · cases hm
    · rw [ha] at h'; cases h'
    · rw [ha] at h'; cases h'
  · intro e he
    have := hd _ _ (hedge e he)
    have h2 := parentsAt_range d _ _ (hedge e he)
    exact hnode _ this.1 (by omega)
  · intro e he
    have := hd _ _ (hedge e he)
    have h2 := parentsAt_range d _ _ (hedge e he)
    exact ⟨this.2, h2.2⟩

theorem mapM_some_id {A B : Type} (f : A → B) (l : List A) : (l.map fun a => some (f a)).mapM id = some (l.map f) := by
  induction l with
  | nil => rfl
  | cons a l ih => rw [List.map_cons, List.mapM_cons, ih]; rfl

/-- The shapes of the results of some vertices. -/
theorem outShapes_cons (d : Dsl) (p : Nat) (ps : List Nat) (l : List Shape) (h : outShapes d (p :: ps) = some l) :
    ∃ x l', vertexAt d p = some x ∧ outShapes d ps = some l' ∧ l = x.1.outShape :: l' := by
  unfold outShapes at h ⊢
  rw [List.mapM_cons] at h
  cases hx : vertexAt d p with
  | none => rw [hx] at h; cases h
  | some x =>
    rw [hx] at h
    cases hl : ps.mapM fun v => (vertexAt d v).map fun x => x.1.outShape with
    | none => rw [hl] at h; cases h
    | some l' => rw [hl] at h; cases h; exact ⟨x, l', rfl, rfl, rfl⟩

/-- Every vertex up to `m` computes a tensor of the shape it delivers, if the shapes up to there fit. -/
theorem values_shape (d : Dsl) (hs : AllSound d) (w : Wires) (hn : w.seen.Nodup) (hseen : ∀ v, v ∈ w.seen ↔ 1 ≤ v ∧ v ≤ d.length)
    (hp : w.conns.Perm (w.seen.flatMap fun v => (children d v).map fun c => (v, c))) (p : Nat → Params) (given : Nat → Tensor ℝ)
    (val : Nat → Option (Tensor ℝ)) (hval : Graph.IsValue w.conns (vertexLayer d p) (heads d) (fun v => some (given v)) val) (m : Nat)
    (hgiven : ∀ v x, v ≤ m → vertexAt d v = some x → x.1.accepts = true → ∀ i ∈ x.1.inShapes, HasShape (given v) i)
    (hloc : ∀ v x, v ≤ m → vertexAt d v = some x → FitsVertex x.1 ∧ (x.2 ≠ [] → outShapes d x.2 = some x.1.inShapes) ∧
      ∀ q ∈ x.2, ((vertexAt d q).map fun y => decide (flattens y.1)) = some true → takesFlat x.1) :
    ∀ v x, v ≤ m → vertexAt d v = some x → ∃ t, val v = some t ∧ HasShape t (delivered x.1) := by
  have hd := hs.forward
  intro v
  induction v using Nat.strong_induction_on with
  | _ v ih =>
    rintro ⟨x, ps⟩ hvm hx
    have hps : parentsAt d v = ps := by unfold parentsAt; rw [hx]; rfl
    obtain ⟨hfx, hlink, htakes⟩ := hloc v _ hvm hx
    simp only at hfx hlink htakes ⊢
    have hsrc := sources_perm d hd w hn hseen hp v
    rw [hps] at hsrc
    have hstep := hval v
    unfold vertexLayer at hstep
    rw [hx] at hstep
    simp only [Option.bind_some] at hstep
    have one : ∀ (i : Shape) (t : Tensor ℝ), x.inShapes = [i] → x.kind ≠ .concatenate →
        (x.kind = .convolution2dValid → x.outShape = convOut i x.filters x.kernel) → (HasShape t i ∨ (1 < i.rows ∧ HasShape t (flat i) ∧ takesFlat x)) →
        Graph.args w.conns (heads d) (fun v => some (given v)) val v = [some t] → ∃ t, val v = some t ∧ HasShape t (delivered x) := by
      intro i t hi hk hc ht hargs
      obtain ⟨l, z, h1, h2, h3⟩ := vertex_shape (p v) x i hi hfx hk hc (hs v x ps hx).1 t ht
      refine ⟨z, ?_, h3⟩
      rw [hstep, hargs, h1, Option.bind_some]
      exact h2
    have noFilters : x.filters = 0 → x.kind ≠ .convolution2dValid := by
      intro h0 hk
      unfold FitsVertex at hfx
      rw [hk] at hfx
      simp only at hfx
      omega
    rcases (hs v x ps hx).2 with ⟨ha, rfl, i, hi, hk⟩ | ⟨ha, hkc, q, y, i, rfl, hq, hy, hi, hk⟩ | ⟨ha, hk, _, _, _, _, hlt, ho, hout⟩
    · -- an input
      have hhead : v ∈ heads d := (mem_heads d v).2 ⟨_, hx, ha⟩
      have hkc : x.kind ≠ .concatenate := by
        intro hk'
        unfold FitsVertex at hfx
        rw [hk', hi] at hfx
        simp only [List.length_singleton] at hfx
        omega
      refine one i (given v) hi hkc ?_ (Or.inl (hgiven v _ hvm hx ha i (by rw [hi]; simp))) ?_
      · intro hc
        rcases hk with hk | hk
        · exact absurd hc (noFilters hk.1)
        · exact hk.2.2
      · unfold Graph.args
        rw [if_pos hhead]
    · -- a layer with one input
      have hhead : v ∉ heads d := by
        intro hm
        obtain ⟨x', hx', ha'⟩ := (mem_heads d v).1 hm
        rw [hx] at hx'
        cases hx'
        rw [ha] at ha'
        cases ha'
      obtain ⟨t, ht, hts⟩ := ih q hq y (by omega) hy
      have hiy : i = y.1.outShape := by
        obtain ⟨y', l', h1, h2, h3⟩ := outShapes_cons d q [] _ (hlink (by simp))
        rw [hy] at h1
        cases h1
        rw [hi] at h3
        exact (List.cons.inj h3).1
      have hq' : (Graph.inputs w.conns v).map (Graph.src w.conns) = [q] := List.perm_singleton.1 hsrc
      refine one i t hi hkc ?_ (by
        by_cases hfy : flattens y.1
        · unfold delivered at hts
          rw [if_pos hfy, ← hiy] at hts
          refine Or.inr ⟨by rw [hiy]; exact hfy.2, hts, htakes q (by simp) ?_⟩
          rw [hy]
          simp [hfy]
        · unfold delivered at hts
          rw [if_neg hfy, ← hiy] at hts
          exact Or.inl hts) ?_
      · intro hc
        rcases hk with hk | hk
        · exact absurd hc (noFilters hk.1)
        · exact hk.2.2.2
      · unfold Graph.args
        rw [if_neg hhead, show (fun e => val (Graph.src w.conns e)) = val ∘ Graph.src w.conns from rfl, ← List.map_map, hq', List.map_singleton, ht]
    · -- a concatenation
      have hhead : v ∉ heads d := by
        intro hm
        obtain ⟨x', hx', ha'⟩ := (mem_heads d v).1 hm
        rw [hx] at hx'
        cases hx'
        rw [ha] at ha'
        cases ha'
      have hfc := hfx
      unfold FitsVertex at hfc
      rw [hk] at hfc
      simp only at hfc
      obtain ⟨c1, c2, c3⟩ := hfc
      -- the results of the parents
      have hdel : ∀ q ∈ ps, ∀ y, vertexAt d q = some y → delivered y.1 = y.1.outShape := by
        intro q hq y hy
        apply if_neg
        intro hfy
        have := htakes q hq (by rw [hy]; simp [hfy])
        unfold takesFlat at this
        rw [hk] at this
        simp at this
      have hparents : ∀ (qs : List Nat) (l : List Shape), (∀ q ∈ qs, q < v) → (∀ q ∈ qs, q ∈ ps) → outShapes d qs = some l →
          (∀ q ∈ qs, ∃ t y, val q = some t ∧ vertexAt d q = some y ∧ HasShape t y.1.outShape ∧ y.1.outShape ∈ l) ∧
            l.length = qs.length ∧ ∀ res : Nat → Tensor ℝ, (∀ q ∈ qs, ∃ y, vertexAt d q = some y ∧ HasShape (res q) y.1.outShape) →
              (l.map Shape.cols).sum = ((qs.map res).map (·.cols)).sum := by
        intro qs
        induction qs with
        | nil =>
          intro l _ _ h
          have : ([] : List Shape) = l := Option.some.inj h
          subst this
          exact ⟨by simp, rfl, by simp⟩
        | cons q qs ihq =>
          intro l hlt hin h
          obtain ⟨y, l', h1, h2, rfl⟩ := outShapes_cons d q qs l h
          obtain ⟨g1, g2, g3⟩ := ihq l' (fun q hq => hlt q (List.mem_cons_of_mem _ hq)) (fun q hq => hin q (List.mem_cons_of_mem _ hq)) h2
          obtain ⟨t, ht, hts⟩ := ih q (hlt q List.mem_cons_self) y (by have := hlt q List.mem_cons_self; omega) h1
          rw [hdel q (hin q List.mem_cons_self) y h1] at hts
          refine ⟨?_, by simp [g2], ?_⟩
          · intro q' hq'
            rcases List.mem_cons.1 hq' with rfl | hq'
            · exact ⟨t, y, ht, h1, hts, List.mem_cons_self⟩
            · obtain ⟨t', y', a1, a2, a3, a4⟩ := g1 q' hq'
              exact ⟨t', y', a1, a2, a3, List.mem_cons_of_mem _ a4⟩
          · intro res hres
            obtain ⟨y', b1, b2⟩ := hres q List.mem_cons_self
            rw [h1] at b1
            cases b1
            have := g3 res fun q hq => hres q (List.mem_cons_of_mem _ hq)
            simp only [List.map_cons, List.sum_cons] at this ⊢
            rw [this, b2.2.1]
      obtain ⟨g1, g2, g3⟩ := hparents ps x.inShapes hlt (fun _ h => h) ho
      -- name them
      let res : Nat → Tensor ℝ := fun q => (val q).getD (given q)
      have hres : ∀ q ∈ ps, val q = some (res q) ∧ (res q).rows = 1 ∧ (res q).chans = 1 := by
        intro q hq
        obtain ⟨t, y, a1, a2, a3, a4⟩ := g1 q hq
        have : res q = t := by show (val q).getD _ = t; rw [a1]; rfl
        rw [this]
        exact ⟨a1, by rw [a3.1]; exact (c2 _ a4).1, by rw [a3.2.2]; exact (c2 _ a4).2⟩
      have hsum := g3 res (by
        intro q hq
        obtain ⟨t, y, a1, a2, a3, a4⟩ := g1 q hq
        have : res q = t := by show (val q).getD _ = t; rw [a1]; rfl
        exact ⟨y, a2, by rw [this]; exact a3⟩)
      generalize hqs : (Graph.inputs w.conns v).map (Graph.src w.conns) = qs at hsrc
      have hargs : Graph.args w.conns (heads d) (fun v => some (given v)) val v = qs.map fun q => some (res q) := by
        unfold Graph.args
        rw [if_neg hhead, show (fun e => val (Graph.src w.conns e)) = val ∘ Graph.src w.conns from rfl, ← List.map_map, hqs]
        apply List.map_congr_left
        intro q hq
        exact (hres q (hsrc.mem_iff.1 hq)).1
      obtain ⟨t, ht1, ht2⟩ := concat_shape (qs.map res) (by rw [List.length_map, hsrc.length_eq, ← g2]; exact c1) (by
        intro t ht
        rw [List.mem_map] at ht
        obtain ⟨q, hq, rfl⟩ := ht
        exact (hres q (hsrc.mem_iff.1 hq)).2)
      have hshape : (⟨1, ((qs.map res).map (·.cols)).sum, 1⟩ : Shape) = x.outShape := by
        rw [hout]
        congr 1
        unfold wrap
        rw [Nat.mod_eq_of_lt c3, hsum]
        exact ((hsrc.map res).map _).sum_eq
      rw [hshape] at ht2
      have hdecl : ∃ o, concatShape (x.inShapes.map fun s => (s.rows, s.cols, s.chans)) = some o := by
        refine ⟨(1, ((x.inShapes.map fun s => (s.rows, s.cols, s.chans)).map (·.2.1)).sum, 1), ?_⟩
        rw [C31_declared_shape]
        refine ⟨by simpa using c1, ?_, rfl⟩
        intro y hy
        rw [List.mem_map] at hy
        obtain ⟨s, hs, rfl⟩ := hy
        exact c2 s hs
      obtain ⟨o, ho'⟩ := hdecl
      obtain ⟨z, h4, h5⟩ := chain_keep [Part.concatenate] _ x.outShape (qs.map res) t ht1 ht2 (rest_keeps (p v) x _ fun _ => rfl)
      refine ⟨z, ?_, by
        unfold delivered
        rw [if_neg (by rintro ⟨h, _⟩; rw [hk] at h; cases h)]
        exact h5⟩
      rw [hstep, hargs, mapM_some_id]
      unfold parts mainParts
      rw [hk]
      simp only
      rw [ho']
      simp only [Option.map_some, Option.bind_some]
      rw [← List.append_assoc, ← List.append_assoc] at h4
      exact h4

/-- What a network predicts whose declared shapes fit together: all vertices compute tensors of their declared shapes from those they are connected to. -/
theorem predict_values (d : Dsl) (hs : AllSound d) (hfit : Fits d) (p : Nat → Params) (given : Nat → Tensor ℝ)
    (hgiven : ∀ v x, vertexAt d v = some x → x.1.accepts = true → ∀ i ∈ x.1.inShapes, HasShape (given v) i) :
    ∃ (w : Wires) (val : Nat → Option (Tensor ℝ)), wires d = some w ∧
      Graph.IsValue w.conns (vertexLayer d p) (heads d) (fun v => some (given v)) val ∧
      (∀ v x, vertexAt d v = some x → ∃ t, val v = some t ∧ HasShape t (delivered x.1)) ∧
      predict d p ((heads d).map given) = some (w.outs.map fun v => some (val v)) := by
  have hd := hs.forward
  have hr := rooted_of_fits d hs hfit
  obtain ⟨w, hw, hn, hseen, houts, hp⟩ := wires_ok d hd hr
  obtain ⟨wf, hnode, hedge⟩ := wellFormed d hs hr w hn hseen hp
  obtain ⟨val, hval⟩ := Graph.value_exists w.conns (vertexLayer d p) (heads d) (fun v => some (given v)) id d.length wf.ranked
  have main : ∀ v x, vertexAt d v = some x → ∃ t, val v = some t ∧ HasShape t (delivered x.1) := by
    intro v x hx
    exact values_shape d hs w hn hseen hp p given val hval d.length (fun v x _ => hgiven v x) (fun v x _ hx => hfit.1 _ (vertexAt_mem d v _ hx)) v x
      (vertexAt_range d v x hx).2 hx
  have hmemOut : ∀ v, v ∈ w.outs ↔ (1 ≤ v ∧ v ≤ d.length) ∧ isOut d v = true := by
    intro v
    rw [houts, List.mem_filter, hseen]
  obtain ⟨s', hpred, _⟩ := Graph.C55_predict w.conns (vertexLayer d p) (heads d) w.outs id d.length wf (by
    intro o ho
    obtain ⟨h1, h2⟩ := (hmemOut o).1 ho
    refine ⟨hnode o h1.1 h1.2, ?_⟩
    intro e he hsrc
    have hc := hfit.2 o (List.mem_map.2 ⟨o - 1, List.mem_range.2 (by omega), by omega⟩) h2
    have := (mem_children d _ _).2 (hedge e he)
    rw [hsrc, hc] at this
    cases this) (d.length + 1) (by omega) (fun v => some (given v)) val hval ⟨fun _ => none, fun _ => none, []⟩ (fun _ _ => rfl)
  refine ⟨w, val, hw, hval, main, ?_⟩
  unfold predict
  rw [hw, Option.bind_some, List.map_map]
  have : Graph.predict w.conns (vertexLayer d p) (d.length + 1) (heads d) w.outs ((heads d).map (some ∘ given)) ⟨fun _ => none, fun _ => none, []⟩ =
    some (w.outs.map fun o => some (val o), s') := hpred
  rw [this, Option.map_some]

/-- Outputs deliver the declared shape. -/
theorem output_delivered (d : Dsl) (v : Nat) (x : Vertex × List Nat) (hx : vertexAt d v = some x) (ho : isOut d v = true) : delivered x.1 = x.1.outShape := by
  apply if_neg
  rintro ⟨h, _⟩
  unfold isOut at ho
  rw [hx] at ho
  simp [givesOutput, Vertex.weighted, h] at ho

/-- C106 for descriptions whose declared shapes fit together: a prediction for inputs of the declared shapes raises no exception, and delivers a tensor of the
declared shape for every output of the network. Missing: the descriptions that are accepted although their layers cannot work with the declared shapes, see
`C106_rows_violated`, `C106_channels_violated` and `C106_dropout_violated`. -/
theorem C106_partial (ops : List Op) (hu : ∀ o ∈ ops, o.Usual) (d : Dsl) (hrun : run ops = some d) (hfit : Fits d) (p : Nat → Params) (given : Nat → Tensor ℝ)
    (hgiven : ∀ v x, vertexAt d v = some x → x.1.accepts = true → ∀ i ∈ x.1.inShapes, HasShape (given v) i) :
    ∃ (outs : List Nat) (result : Nat → Tensor ℝ),
      outs.Perm (((List.range d.length).map (· + 1)).filter (isOut d)) ∧ predict d p ((heads d).map given) = some (outs.map fun v => some (some (result v))) ∧
        ∀ v ∈ outs, ∀ x, vertexAt d v = some x → HasShape (result v) x.1.outShape := by
  have hs := run_sound ops hu d hrun
  obtain ⟨w, val, hw, hval, main, hpred⟩ := predict_values d hs hfit p given hgiven
  obtain ⟨w', hw', hn, hseen, houts, hp⟩ := wires_ok d hs.forward (rooted_of_fits d hs hfit)
  rw [hw] at hw'
  cases hw'
  refine ⟨w.outs, fun v => (val v).getD (given v), ?_, ?_, ?_⟩
  · rw [houts]
    apply List.Perm.filter
    rw [List.perm_ext_iff_of_nodup hn (List.nodup_range.map fun a b h => by simpa using h)]
    intro v
    rw [hseen, List.mem_map]
    constructor
    · intro h
      exact ⟨v - 1, List.mem_range.2 (by omega), by omega⟩
    · rintro ⟨i, hi, rfl⟩
      have := List.mem_range.1 hi
      omega
  · rw [hpred]
    congr 1
    apply List.map_congr_left
    intro v hv
    rw [houts, List.mem_filter, hseen] at hv
    obtain ⟨x, hx⟩ := vertexAt_some d v hv.1.1 hv.1.2
    obtain ⟨t, ht, _⟩ := main v x hx
    simp only [ht, Option.getD_some]
  · intro v hv x hx
    obtain ⟨t, ht, hts⟩ := main v x hx
    simp only [ht, Option.getD_some]
    rw [houts, List.mem_filter] at hv
    rw [output_delivered d v x hx hv.2] at hts
    exact hts

/-! ### Where it fails -/

/-- A network of one vertex: what it predicts. -/
theorem predict_single (x : Vertex) (hacc : x.accepts = true) (hout : givesOutput x = true) (p : Nat → Params) (t : Tensor ℝ) :
    predict [(x, [])] p [t] = some [some ((parts (p 1) x).bind fun l => chain l [t])] := by
  have hh : heads [(x, [])] = [1] := by
    unfold heads
    simp [hacc, List.range_succ]
  have hw : wires [(x, [])] = some ⟨[1], [], [1]⟩ := by
    unfold wires
    rw [hh]
    simp [wire, children, vertexAt, hout, List.range_succ]
  unfold predict
  rw [hw, hh]
  simp [Graph.predict, Graph.forwardAll, Graph.doForward, Graph.outputs, vertexLayer, vertexAt]

/-- C106 fails for full layers with several rows of output: the description is accepted, the layer delivers a single row, and adding the bias raises an
exception, for all inputs and weights. -/
theorem C106_rows_violated :
    ∃ d, run [.input ⟨1, 2, 1⟩ ⟨2, 3, 1⟩ .full .relu true, .set 1 (.bias true)] = some d ∧
      ∀ p t, HasShape t ⟨1, 2, 1⟩ → predict d p [t] = some [some none] := by
  refine ⟨[(⟨true, true, .full, .relu, false, true, 32, [⟨1, 2, 1⟩], ⟨2, 3, 1⟩, 0, 0, true, false, false, five, 0#32, twoPercent⟩, [])], rfl, ?_⟩
  intro p t ht
  obtain ⟨h1, h2, h3⟩ := ht
  rw [predict_single _ rfl rfl]
  simp [parts, mainParts, flattenFirst, wrapped, wrap, chain, Part.forward, Dense.forward, matmul, Bias.forward, add, zip, h1, h2, h3, Vertex.weighted]

/-- C106 fails for full layers whose input has one row and several channels: the description is accepted, the layer is not preceded by a flatten layer, and
every prediction raises an exception. -/
theorem C106_channels_violated :
    ∃ d, run [.input ⟨1, 2, 3⟩ ⟨1, 3, 1⟩ .full .relu true] = some d ∧ ∀ p t, HasShape t ⟨1, 2, 3⟩ → predict d p [t] = some [some none] := by
  refine ⟨[(⟨true, true, .full, .relu, false, false, 32, [⟨1, 2, 3⟩], ⟨1, 3, 1⟩, 0, 0, true, false, false, five, 0#32, twoPercent⟩, [])], rfl, ?_⟩
  intro p t ht
  obtain ⟨h1, h2, h3⟩ := ht
  rw [predict_single _ rfl rfl]
  simp [parts, mainParts, flattenFirst, wrapped, wrap, chain, Part.forward, Dense.forward, matmul, h1, h2, h3, Vertex.weighted]

/-- C106 fails for dropout layers between images: the layer flattens its input although its declared output still has several rows. With the declared shapes
the convolution behind it gets a 2x2 image and delivers one number; it gets a row of four and delivers nothing at all. -/
theorem C106_dropout_violated :
    ∃ d, run [.input ⟨2, 2, 1⟩ ⟨2, 2, 1⟩ .normalize .linear false, .layer 1 ⟨2, 2, 1⟩ ⟨2, 2, 1⟩ .dropout .linear false,
        .layerFilters 2 1 2 .convolution2dValid .relu true] = some d ∧
      (vertexAt d 3).map (fun x => x.1.outShape) = some ⟨1, 1, 1⟩ ∧
      ∀ p t, HasShape t ⟨2, 2, 1⟩ → ∃ r, predict d p [t] = some [some (some r)] ∧ HasShape r ⟨0, 3, 1⟩ := by
  let d : Dsl :=
    [(⟨true, false, .normalize, .linear, false, false, 32, [⟨2, 2, 1⟩], ⟨2, 2, 1⟩, 0, 0, false, false, false, five, 0#32, twoPercent⟩, []),
      (⟨false, false, .dropout, .linear, false, false, 32, [⟨2, 2, 1⟩], ⟨2, 2, 1⟩, 0, 0, false, false, false, five, 0#32, twoPercent⟩, [1]),
      (⟨false, true, .convolution2dValid, .relu, true, false, 32, [⟨2, 2, 1⟩], ⟨1, 1, 1⟩, 1, 2, false, false, false, five, 0#32, twoPercent⟩, [2])]
  have hd : run [.input ⟨2, 2, 1⟩ ⟨2, 2, 1⟩ .normalize .linear false, .layer 1 ⟨2, 2, 1⟩ ⟨2, 2, 1⟩ .dropout .linear false,
      .layerFilters 2 1 2 .convolution2dValid .relu true] = some d := by decide +kernel
  refine ⟨d, hd, by decide +kernel, ?_⟩
  intro p t ht
  obtain ⟨h1, h2, h3⟩ := ht
  have hw : wires d = some ⟨[1, 2, 3], [(2, 3), (1, 2)], [3]⟩ := rfl
  have hh : heads d = [1] := rfl
  unfold predict
  rw [hw, hh]
  have l1 : vertexLayer d p 1 [some t] = some ⟨t.rows, t.cols, t.chans, (p 1).normalized t⟩ := rfl
  obtain ⟨y, l2, a1, a2, a3⟩ : ∃ y, vertexLayer d p 2 [some ⟨t.rows, t.cols, t.chans, (p 1).normalized t⟩] = some y ∧ HasShape y ⟨1, 4, 1⟩ := by
    refine ⟨map (fun v => v * (p 2).scale) (flattenForward ⟨t.rows, t.cols, t.chans, (p 1).normalized t⟩), rfl, ?_⟩
    simp [map, flattenForward, rowFlatten, Tensor.size, HasShape, h1, h2, h3]
  obtain ⟨z, l3, hz⟩ : ∃ z, vertexLayer d p 3 [some y] = some z ∧ HasShape z ⟨0, 3, 1⟩ := by
    refine ⟨Activation.activate .relu (sumToChannel (validCorrelation (channelTo y 0) (channelTo ⟨2, 2, 1, (p 3).kernel 0⟩ 0)) 0 1), rfl, ?_⟩
    simp [HasShape, Activation.activate, map, sumToChannel, validCorrelation, channelTo, a1, a2]
  refine ⟨z, ?_, hz⟩
  have o1 : Graph.outputs [(2, 3), (1, 2)] 1 = [1] := rfl
  have o2 : Graph.outputs [(2, 3), (1, 2)] 2 = [0] := rfl
  have o3 : Graph.outputs [(2, 3), (1, 2)] 3 = [] := rfl
  have i2 : Graph.inputs [(2, 3), (1, 2)] 2 = [1] := rfl
  have i3 : Graph.inputs [(2, 3), (1, 2)] 3 = [0] := rfl
  have e0 : Graph.dst [(2, 3), (1, 2)] 0 = 3 := rfl
  have e1 : Graph.dst [(2, 3), (1, 2)] 1 = 2 := rfl
  simp [Graph.predict, Graph.forwardAll, Graph.doForward, Graph.sendAll, Graph.send, Graph.ready, Graph.clear, l1, l2, l3, o1, o2, o3, i2, i3, e0, e1,
    show List.length d = 2 + 1 from rfl]

/-- The hypotheses of `C106_partial` for a network with two inputs, a convolution, a concatenation, and two outputs. -/
def exampleOps : List Op :=
  [.inputFilters ⟨4, 4, 1⟩ 2 3 .convolution2dValid .relu false, .input ⟨1, 3, 1⟩ ⟨1, 2, 1⟩ .full .tanhDefault false, .set 2 (.bias true),
    .layer 1 ⟨2, 2, 2⟩ ⟨1, 4, 1⟩ .full .relu false, .concat [3, 2], .layer 4 ⟨1, 6, 1⟩ ⟨1, 1, 1⟩ .full .sigmoid true,
    .layer 4 ⟨1, 6, 1⟩ ⟨1, 5, 1⟩ .full .softmax true]

example : ∃ d, run exampleOps = some d ∧ (∀ o ∈ exampleOps, o.Usual) ∧ Fits d ∧ isOut d 5 = true ∧ isOut d 6 = true ∧
    (vertexAt d 6).map (fun x => x.1.outShape) = some ⟨1, 5, 1⟩ := by
  refine ⟨_, rfl, ?_, ?_, ?_, ?_, ?_⟩
  · decide
  all_goals decide +kernel

end Verif.Wiring
