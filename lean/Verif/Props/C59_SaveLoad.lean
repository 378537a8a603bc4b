import Verif.Lemmas.ModelFiles

/-!
C59: saving a model under a name stores the weights next to its configuration. C60: loading a saved model gives every layer its own weights back.

Both hold when the model replaces an existing one or its folder does not exist yet, for descriptions made depth first (`C59_partial`, `C60_partial`). When the folder exists and must not be
replaced, the configuration goes to a new folder but the weights stay behind (`C59_violated`), so that the new model cannot be loaded (`C59_load_violated`). When
layers were added in another order, the loader numbers them differently and gives them each other's weights (`C60_order_violated`); a layer that is used both
directly and by way of another layer is made twice (`C60_skip_violated`).

C103: saving without overwriting leaves everything that was on the disk as it is (`C103_partial`), unless the new name is already in use (`C103_violated`).
C104: saving again keeps the knowledge saved under other labels — it is deleted (`C104_violated`).
C105: knowledge under one label is independent of other labels.
-/
namespace Verif.ModelFiles
open Verif.TextCodec Verif.Decimal Verif.Dsl Verif.Enums

variable {T : Type}

/-- What must hold of a network for its settings and layers to survive: all numbers fit and all floats survive 15 decimals. -/
def Storable (st : Settings) (d : Dsl) : Prop :=
  d.length < 2 ^ 32 ∧ (∀ e ∈ d, Fits e.1) ∧ Survives st.learningRate ∧ Survives st.biasLearningRate

instance (st : Settings) (d : Dsl) : Decidable (Storable st d) := by unfold Storable; infer_instance

theorem vertexAt_mem (d : Dsl) (v : Nat) (x) (h : vertexAt d v = some x) : x ∈ d := by
  unfold vertexAt at h
  split at h
  · cases h
  · exact List.mem_of_getElem? h

theorem DepthFirst.rooted {d : Dsl} (h : DepthFirst d) : Rooted d := by
  intro v x hx hp
  have hr := vertexAt_range d v x hx
  have := (DepthFirst.at d h v hr.1 hr.2).2.2.2
  have hps : parentsAt d v = [] := by unfold parentsAt; rw [hx]; exact hp
  have := this hps
  rw [hx] at this
  simpa using this

/-- C60. A description made depth first is loaded again: the same settings and the same layers with the same numbers. -/
theorem C60_description (ops : List Op) (hu : ∀ o ∈ ops, o.Usual) (d : Dsl) (hrun : run ops = some d) (st : Settings) (hst : Storable st d)
    (hdf : DepthFirst d) : ∃ rows, metadata st d = some rows ∧ load rows = some (st, d) := by
  obtain ⟨hn, hfit, hl, hb⟩ := hst
  have hs := run_sound ops hu d hrun
  obtain ⟨rows, e, h1, h2⟩ := metadata_ok d hs.forward (DepthFirst.rooted hdf) st
  obtain ⟨m, em, hm⟩ := readRows_ok d hn rows h1 h2
  refine ⟨_, e, ?_⟩
  unfold settingRows
  simp only [List.cons_append, List.nil_append]
  unfold load
  dsimp only
  rw [if_neg (by simp), optimizer_text, loss_text, C101_partial _ hl, C101_partial _ hb, em]
  dsimp only
  rw [hm.count, create_all d m hm hs (fun v x hx => hfit x (vertexAt_mem d v x hx)) hdf (DepthFirst.rooted hdf), Option.map_some]
  unfold upTo
  simp only [List.take_length]

/-! ### Saving -/

theorem suffix_cons_ne (n : Str) (r q : Path) (h : q <:+ r) : q ≠ n :: r := by
  rintro rfl
  have := h.length_le
  simp at this

/-- Saving when the folder may be used: the configuration and the weights are in it, nothing else is, and nothing outside it changes. -/
theorem saveAs_fresh (k : Disk T) (hk : Tree k) (p : Path) (hp : p ≠ []) (hc : Clear k p) (ow : Bool) (h : ow = true ∨ k p = none) (ms ms' : Nat)
    (config : Str) (files : List (Str × T)) :
    ∃ k', saveAs k p ow ms ms' config files = some k' ∧ k' (configName :: p) = some (.file (.text config)) ∧
      (∀ f ∈ files, (∀ g ∈ files, g.1 = f.1 → g.2 = f.2) → k' (f.1 :: defaultLabel :: p) = some (.file (.tensor f.2))) ∧
      (∀ q, ¬ p <:+ q → k q ≠ none → k' q = k q) ∧
      ∀ q, p <:+ q → q ≠ p → q ≠ configName :: p → q ≠ defaultLabel :: p → (∀ f ∈ files, q ≠ f.1 :: defaultLabel :: p) → k' q = none := by
  obtain ⟨k1, e1, t1, d1, b1, _, g1⟩ := folder_fresh k hk p hp hc ow ms h
  have hnc : configName ≠ defaultLabel := by decide +kernel
  have hcn : k1 (configName :: p) ≠ some .dir := by
    rw [b1 _ (List.suffix_cons _ _) (suffix_cons_ne _ _ _ (List.suffix_refl _)).symm]; simp
  have w1 := writeText_ok k1 configName p d1 hcn config
  have t2 := put_file_tree k1 t1 configName p d1 hcn (.text config)
  set k2 := put k1 (configName :: p) (.file (.text config)) with hk2
  have hat : ∀ q, q ≠ configName :: p → k2 q = k1 q := by intro q hq; rw [hk2]; unfold put; rw [if_neg hq]
  have hdn : k2 (defaultLabel :: p) = none := by
    rw [hat _ (by simpa using Ne.symm hnc)]
    exact b1 _ (List.suffix_cons _ _) (suffix_cons_ne _ _ _ (List.suffix_refl _)).symm
  have hclear : Clear k2 (defaultLabel :: p) := by
    intro q hq c hqc
    rcases List.suffix_cons_iff.1 hq with rfl | hq
    · rw [hdn] at hqc; cases hqc
    · rw [hat q (suffix_cons_ne _ _ _ hq)] at hqc
      -- an ancestor of a folder is a folder
      have hdirs : ∀ r : Path, k1 r ≠ none → ∀ q, q <:+ r → q ≠ r → k1 q = some .dir := by
        intro r
        induction r with
        | nil => intro _ q hq hne; rw [List.suffix_nil] at hq; exact absurd hq hne
        | cons n r ih =>
          intro hn q hq hne
          have hr := t1.parent n r hn
          rcases List.suffix_cons_iff.1 hq with rfl | hq
          · exact absurd rfl hne
          · by_cases hqr : q = r
            · rw [hqr]; exact hr
            · exact ih (by rw [hr]; simp) q hq hqr
      by_cases hqp : q = p
      · rw [hqp, d1] at hqc; cases hqc
      · rw [hdirs p (by rw [d1]; simp) q hq hqp] at hqc; cases hqc
  obtain ⟨k3, e3, t3, d3, b3, f3, g3⟩ := folder_fresh k2 t2 (defaultLabel :: p) (by simp) hclear ow ms' (Or.inr hdn)
  have hnodir : ∀ n, k3 (n :: defaultLabel :: p) ≠ some .dir := by
    intro n
    rw [b3 _ (List.suffix_cons _ _) (suffix_cons_ne _ _ _ (List.suffix_refl _)).symm]; simp
  obtain ⟨w3, v3⟩ := writes_ok files k3 (defaultLabel :: p) d3 hnodir
  have hdeep : ∀ (n : Str) (q : Path), q ≠ n :: defaultLabel :: p ∨ ∃ m, q = m :: defaultLabel :: p := by
    intro n q
    by_cases h : q = n :: defaultLabel :: p
    · exact Or.inr ⟨n, h⟩
    · exact Or.inl h
  refine ⟨_, ?_, ?_, v3, ?_, ?_⟩
  · unfold saveAs saveKnowledge
    rw [e1]
    simp only [Option.bind_some]
    rw [w1]
    simp only [Option.bind_some]
    rw [e3]
    rfl
  · rw [w3 _ (by
        intro n _ h
        have := congrArg List.length h
        simp at this)]
    rw [g3 _ (by
        intro h
        have := h.eq_of_length (by simp)
        simp at this
        exact hnc this.symm) (by rw [hk2]; unfold put; rw [if_pos rfl]; simp)]
    rw [hk2]; unfold put; rw [if_pos rfl]
  · intro q hq hqn
    have hq1 : k1 q = k q := g1 q hq hqn
    have hqc : q ≠ configName :: p := by rintro rfl; exact hq (List.suffix_cons _ _)
    rw [w3 q (by
      rintro n _ rfl
      exact hq ((List.suffix_cons _ _).trans (List.suffix_cons _ _)))]
    rw [g3 q (fun h => hq ((List.suffix_cons _ _).trans h)) (by rw [hat q hqc, hq1]; exact hqn), hat q hqc, hq1]
  · intro q h1 h2 h3 h4 h5
    rw [w3 q (by
      intro n hn he
      rw [List.mem_map] at hn
      obtain ⟨f, hf, rfl⟩ := hn
      exact h5 f hf he)]
    by_cases hbelow : (defaultLabel :: p) <:+ q
    · exact b3 q hbelow h4
    · have hnot : ¬ q <:+ (defaultLabel :: p) := by
        intro h
        rcases List.suffix_cons_iff.1 h with h | h
        · exact h4 h
        · exact h2 (h.eq_of_length (Nat.le_antisymm h.length_le h1.length_le))
      rw [f3 q hbelow hnot, hat q h3]
      exact b1 q h1 h2

/-- C59. When the model replaces an existing one, or there is none yet, the configuration and the weights of all layers are in the folder that was asked for, and nothing else is; everything
outside is left alone. Missing: an existing folder that must not be replaced. -/
theorem C59_partial (num : Str → Bool) (net : Net T) (rows : List (List Str)) (hm : metadata net.settings net.dsl = some rows) (l : List (Nat × Part))
    (hl : slots net.dsl = some l) (k : Disk T) (hk : Tree k) (p : Path) (hp : p ≠ []) (hc : Clear k p) (ow : Bool) (h : ow = true ∨ k p = none) (ms ms' : Nat) :
    ∃ k', saveNet num k p ow ms ms' net = some k' ∧ k' (configName :: p) = some (.file (.text (configText num rows))) ∧
      (∀ s ∈ l, k' (fileName s :: defaultLabel :: p) = some (.file (.tensor (net.weights s)))) ∧
      (∀ q, ¬ p <:+ q → k q ≠ none → k' q = k q) ∧
      ∀ q, p <:+ q → q ≠ p → q ≠ configName :: p → q ≠ defaultLabel :: p → (∀ s ∈ l, q ≠ fileName s :: defaultLabel :: p) → k' q = none := by
  obtain ⟨k', e, h1, h2, h3, h4⟩ := saveAs_fresh k hk p hp hc ow h ms ms' (configText num rows) (l.map fun s => (fileName s, net.weights s))
  refine ⟨k', ?_, h1, ?_, h3, ?_⟩
  · unfold saveNet
    rw [hm, hl]
    exact e
  · intro s hs
    refine h2 (fileName s, net.weights s) (List.mem_map.2 ⟨s, hs, rfl⟩) ?_
    intro g hg he
    obtain ⟨s', _, rfl⟩ := List.mem_map.1 hg
    simp only at he ⊢
    rw [fileName_injective he]
  · intro q a b c d e
    refine h4 q a b c d ?_
    intro f hf
    obtain ⟨s, hs, rfl⟩ := List.mem_map.1 hf
    exact e s hs

theorem mapM_all {A B : Type} (f : A → Option B) (g : A → B) (l : List A) (h : ∀ a ∈ l, f a = some (g a)) : l.mapM f = some (l.map g) := by
  induction l with
  | nil => rfl
  | cons a l ih =>
    rw [List.mapM_cons, h a List.mem_cons_self, ih fun a ha => h a (List.mem_cons_of_mem _ ha)]
    rfl

/-- C60. Saved and loaded again, a network that was described depth first has the same settings, the same layers and, in every layer, the same weights. Missing: descriptions made in another
order (`C60_order_violated`) and layers that are used both directly and by way of others (`C60_skip_violated`). -/
theorem C60_partial (ops : List Op) (hu : ∀ o ∈ ops, o.Usual) (net : Net T) (hrun : run ops = some net.dsl) (hst : Storable net.settings net.dsl)
    (hdf : DepthFirst net.dsl) (num : Str → Bool) (k : Disk T) (hk : Tree k) (p : Path) (hp : p ≠ []) (hc : Clear k p) (ow : Bool) (h : ow = true ∨ k p = none)
    (ms ms' : Nat) :
    ∃ k' l, saveNet num k p ow ms ms' net = some k' ∧ loadNet k' p = some (net.settings, net.dsl, l) ∧
      (∀ e ∈ l, e.2 = net.weights e.1) ∧ ∀ v x, vertexAt net.dsl v = some x → ∀ q ∈ parts x.1, ((v, q), net.weights (v, q)) ∈ l := by
  have hs := run_sound ops hu net.dsl hrun
  have hroot := DepthFirst.rooted hdf
  obtain ⟨rows, em, hload⟩ := C60_description ops hu net.dsl hrun net.settings hst hdf
  obtain ⟨l, el, hl⟩ := slots_ok net.dsl hs.forward hroot
  obtain ⟨k', e, h1, h2, _, _⟩ := C59_partial num net rows em l el k hk p hp hc ow h ms ms'
  refine ⟨k', l.map fun s => (s, net.weights s), e, ?_, ?_, ?_⟩
  · unfold loadNet
    rw [h1]
    dsimp only
    rw [records_back num net.dsl net.settings hs.forward hroot rows em, Option.bind_some, hload, Option.bind_some]
    dsimp only
    unfold loadKnowledge
    rw [el, Option.bind_some, mapM_all _ (fun s => (s, net.weights s))]
    · rfl
    · intro s hs
      unfold readTensor
      rw [h2 s hs]
      rfl
  · intro e he
    obtain ⟨s, _, rfl⟩ := List.mem_map.1 he
    rfl
  · intro v x hx q hq
    exact List.mem_map.2 ⟨(v, q), (hl v q).2 ⟨x, hx, hq⟩, rfl⟩

/-! ### Examples and violations -/

/-- A disk with nothing on it. -/
def emptyDisk : Disk Nat := fun p => if p = [] then some .dir else none

theorem emptyDisk_tree : Tree emptyDisk := by
  refine ⟨rfl, ?_⟩
  intro n r h
  exact absurd rfl h

def sampleSettings : Settings := ⟨.adam, 0x3C23D70A#32, 0x3A83126F#32, .mse⟩

/-- Different weights everywhere. -/
def sampleWeights : Nat × Part → Nat
  | (v, .full) => 10 * v
  | (v, .bias) => 10 * v + 1
  | (v, .filter i) => 10 * v + 2 + i

/-- Two inputs, one with a convolution and a bias, joined, and an output. -/
def joinedOps : List Op :=
  [.inputFilters ⟨5, 5, 1⟩ 2 3 .convolution2dValid .relu false, .set 1 (.bias true), .layer 1 ⟨3, 3, 2⟩ ⟨1, 4, 1⟩ .full .relu false,
   .input ⟨1, 3, 1⟩ ⟨1, 3, 1⟩ .full .tanhDefault false, .concat [2, 3], .layer 4 ⟨1, 7, 1⟩ ⟨1, 2, 1⟩ .full .sigmoid true]

def savePath : Path := [text "m", text "repo"]

theorem emptyDisk_clear (p : Path) : Clear emptyDisk p := by
  intro q _ c h
  unfold emptyDisk at h
  split at h <;> cases h

/-- The hypotheses of `C60_partial` are met by a network with several inputs, convolution, bias and concatenation. -/
example : (∀ o ∈ joinedOps, o.Usual) ∧ (run joinedOps).isSome ∧ ((run joinedOps).map fun d => decide (Storable sampleSettings d ∧ DepthFirst d)) = some true ∧
    Tree emptyDisk ∧ Clear emptyDisk savePath ∧ savePath ≠ [] := by
  refine ⟨by decide +kernel, by decide +kernel, by decide +kernel, emptyDisk_tree, emptyDisk_clear _, by decide +kernel⟩

/-- A layer with two layers behind it: the second of these is described before the first one gets another layer behind it. -/
def treeOps : List Op :=
  [.input ⟨1, 3, 1⟩ ⟨1, 3, 1⟩ .full .relu false, .layer 1 ⟨1, 3, 1⟩ ⟨1, 3, 1⟩ .full .relu false, .layer 1 ⟨1, 3, 1⟩ ⟨1, 3, 1⟩ .full .tanhDefault true,
   .layer 2 ⟨1, 3, 1⟩ ⟨1, 3, 1⟩ .full .sigmoid true]

/-- A layer whose output is used by the next layer and by the concatenation after it. -/
def skipOps : List Op :=
  [.input ⟨1, 3, 1⟩ ⟨1, 3, 1⟩ .full .relu false, .layer 1 ⟨1, 3, 1⟩ ⟨1, 3, 1⟩ .full .relu false, .concat [1, 2],
   .layer 3 ⟨1, 6, 1⟩ ⟨1, 2, 1⟩ .full .sigmoid true]

def netOf (ops : List Op) : Option (Net Nat) := (run ops).map fun d => ⟨sampleSettings, d, sampleWeights⟩

/-- A network is saved and loaded. -/
def saveAndLoad (ops : List Op) : Option (Settings × Dsl × List ((Nat × Part) × Nat)) :=
  (netOf ops).bind fun net => (saveNet Csv.isFloat emptyDisk savePath true 0 0 net).bind fun k => loadNet k savePath

/-- C60, violated: in the network of `treeOps` vertex 3 has the activation tanh and weights 30, vertex 4 sigmoid and 40. After saving and loading, tanh has the weights 40 and sigmoid has 30;
no error is reported. -/
theorem C60_order_violated :
    (∀ o ∈ treeOps, o.Usual) ∧
    (netOf treeOps).map (fun n => n.dsl.map fun x => x.1.act) = some [.relu, .relu, .tanhDefault, .sigmoid] ∧
    (saveAndLoad treeOps).map (fun n => n.2.1.map fun x => x.1.act) = some [.relu, .relu, .sigmoid, .tanhDefault] ∧
    (saveAndLoad treeOps).map (fun n => n.2.2) = some [((1, .full), 10), ((2, .full), 20), ((3, .full), 30), ((4, .full), 40)] := by
  decide +kernel

/-- C60, violated: the network of `skipOps` is saved with four vertices, but from its configuration six are made, and the weights of the last one are not in any file. -/
theorem C60_skip_violated :
    (∀ o ∈ skipOps, o.Usual) ∧
    (((run skipOps).bind (metadata sampleSettings)).bind load).map (fun r => r.2.map fun x => (x.1.kind, x.2)) =
      some [(.full, []), (.full, [1]), (.concatenate, [1, 2]), (.full, [3]), (.concatenate, [1, 2]), (.full, [5])] ∧
    (((netOf skipOps).bind fun net => saveNet Csv.isFloat emptyDisk savePath true 0 0 net).isSome = true ∧ saveAndLoad skipOps = none) := by
  decide +kernel

/-- The same network described with the concatenation's parents made one after the other from separate inputs is loaded. -/
example : (saveAndLoad joinedOps).map (fun n => n.2.2) =
    some [((1, .filter 0), 12), ((1, .filter 1), 13), ((1, .bias), 11), ((2, .full), 20), ((5, .full), 50), ((3, .full), 30), ((5, .full), 50)] := by
  decide +kernel

/-! ### An existing folder that must not be replaced -/

theorem stamped_below_only (p : Path) (hp : p ≠ []) (ms : Nat) (q : Path) (h : q <:+ stamped p ms) : q = stamped p ms ∨ q <:+ p.tail := by
  cases p with
  | nil => exact absurd rfl hp
  | cons n r =>
    unfold stamped at h ⊢
    rcases List.suffix_cons_iff.1 h with h | h
    · exact Or.inl h
    · exact Or.inr h

theorem Tree.ancestors {k : Disk T} (hk : Tree k) (r : Path) (h : k r ≠ none) : ∀ q, q <:+ r → q ≠ r → k q = some .dir := by
  induction r with
  | nil => intro q hq hne; rw [List.suffix_nil] at hq; exact absurd hq hne
  | cons n r ih =>
    intro q hq hne
    have hr := hk.parent n r h
    rcases List.suffix_cons_iff.1 hq with rfl | hq
    · exact absurd rfl hne
    · by_cases hqr : q = r
      · rw [hqr]; exact hr
      · exact ih (by rw [hr]; simp) q hq hqr

theorem clear_of {k : Disk T} (hk : Tree k) (p : Path) (hp : k p = some .dir ∨ k p = none ∧ k p.tail = some .dir) : Clear k p := by
  intro q hq c hqc
  rcases hp with hp | ⟨hp, hp'⟩
  · by_cases h : q = p
    · rw [h, hp] at hqc; cases hqc
    · rw [hk.ancestors p (by rw [hp]; simp) q hq h] at hqc; cases hqc
  · cases p with
    | nil => rw [hk.root] at hp; cases hp
    | cons n r =>
      rcases List.suffix_cons_iff.1 hq with rfl | hq
      · rw [hp] at hqc; cases hqc
      · simp only [List.tail_cons] at hp'
        by_cases h : q = r
        · rw [h, hp'] at hqc; cases hqc
        · rw [hk.ancestors r (by rw [hp']; simp) q hq h] at hqc; cases hqc

/-- The weights of a knowledge folder that is not replaced: either the folder is new, or another name is used. -/
theorem saveKnowledge_keep (k : Disk T) (hk : Tree k) (p : Path) (hp : k p = some .dir) (label : Str) (ms : Nat) (files : List (Str × T))
    (hfree : k (label :: p) = none ∨ k (label :: p) = some .dir ∧ k (stamped (label :: p) ms) = none) :
    ∃ k' q, saveKnowledge k p label false ms files = some k' ∧ (q = label :: p ∨ q = stamped (label :: p) ms) ∧ k q = none ∧ k' q = some .dir ∧
      (∀ f ∈ files, (∀ g ∈ files, g.1 = f.1 → g.2 = f.2) → k' (f.1 :: q) = some (.file (.tensor f.2))) ∧
      ∀ s, ¬ q <:+ s → k' s = k s := by
  unfold saveKnowledge
  have finish : ∀ (q : Path) (k1 : Disk T), q.tail = p → k q = none → k1 q = some .dir → (∀ s, q <:+ s → s ≠ q → k1 s = none) → (∀ s, k s ≠ none → k1 s = k s) →
      (∀ s, ¬ s <:+ q → k1 s = k s) →
      let k' := files.foldl (fun k f => writeTensor k (f.1 :: q) f.2) k1
      k' q = some .dir ∧ (∀ f ∈ files, (∀ g ∈ files, g.1 = f.1 → g.2 = f.2) → k' (f.1 :: q) = some (.file (.tensor f.2))) ∧ ∀ s, ¬ q <:+ s → k' s = k s := by
    intro q k1 ht hqn hq hb hg hf k'
    obtain ⟨w, v⟩ := writes_ok files k1 q hq (by
      intro n
      rw [hb _ (List.suffix_cons _ _) (suffix_cons_ne _ _ _ (List.suffix_refl _)).symm]; simp)
    refine ⟨?_, v, ?_⟩
    · exact (w q fun n _ => suffix_cons_ne _ _ _ (List.suffix_refl _)).trans hq
    · intro s hs
      refine (w s (by rintro n _ rfl; exact hs (List.suffix_cons _ _))).trans ?_
      by_cases h : s <:+ q
      · have hne : s ≠ q := by rintro rfl; exact hs (List.suffix_refl _)
        have hsp : s <:+ p := by
          cases q with
          | nil => rw [List.suffix_nil] at h; exact absurd h hne
          | cons n r =>
            rw [← ht]
            rcases List.suffix_cons_iff.1 h with h | h
            · exact absurd h hne
            · exact h
        have : k s = some .dir := by
          by_cases hsp' : s = p
          · rw [hsp']; exact hp
          · exact hk.ancestors p (by rw [hp]; simp) s hsp hsp'
        exact hg s (by rw [this]; simp)
      · exact hf s h
  rcases hfree with hn | ⟨hd, hn⟩
  · obtain ⟨k1, e1, t1, d1, b1, f1, g1⟩ := folder_fresh k hk (label :: p) (by simp) (clear_of hk _ (Or.inr ⟨hn, hp⟩)) false ms (Or.inr hn)
    rw [e1]
    obtain ⟨a, b, c⟩ := finish (label :: p) k1 rfl hn d1 b1
      (fun s hs => g1 s (fun h => hs (hk.below_none _ hn s h)) hs)
      (by
        intro s hs
        by_cases h : (label :: p) <:+ s
        · rw [b1 s h (by rintro rfl; exact hs (List.suffix_refl _)), hk.below_none _ hn s h]
        · exact f1 s h hs)
    exact ⟨_, label :: p, rfl, Or.inl rfl, hn, a, b, c⟩
  · obtain ⟨k1, e1, t1, d1, g1, f1⟩ := folder_other k hk (label :: p) hd ms (clear_of hk _ (Or.inr ⟨hn, hp⟩))
    rw [e1]
    obtain ⟨a, b, c⟩ := finish (stamped (label :: p) ms) k1 rfl hn d1
      (by
        intro s hs hne
        rw [f1 s fun h => hne (h.eq_of_length (Nat.le_antisymm h.length_le hs.length_le)), hk.below_none _ hn s hs])
      g1 f1
    exact ⟨_, _, rfl, Or.inr rfl, hn, a, b, c⟩

/-- Saving into an existing folder without overwriting, when the new names are free. -/
theorem saveAs_keep (k : Disk T) (hk : Tree k) (p : Path) (hp : p ≠ []) (hd : k p = some .dir) (ms ms' : Nat) (hn : k (stamped p ms) = none)
    (hw : k (defaultLabel :: p) = none ∨ k (defaultLabel :: p) = some .dir ∧ k (stamped (defaultLabel :: p) ms') = none) (config : Str) (files : List (Str × T)) :
    ∃ k' q, saveAs k p false ms ms' config files = some k' ∧ (q = defaultLabel :: p ∨ q = stamped (defaultLabel :: p) ms') ∧ k q = none ∧
      k' (configName :: stamped p ms) = some (.file (.text config)) ∧
      (∀ f ∈ files, (∀ g ∈ files, g.1 = f.1 → g.2 = f.2) → k' (f.1 :: q) = some (.file (.tensor f.2))) ∧
      (∀ s, stamped p ms <:+ s → s ≠ stamped p ms → s ≠ configName :: stamped p ms → k' s = none) ∧
      ∀ s, k s ≠ none → k' s = k s := by
  have htail : (stamped p ms).tail = p.tail := by
    cases p with
    | nil => exact absurd rfl hp
    | cons n r => rfl
  have hpt : k p.tail = some .dir := by
    cases p with
    | nil => exact absurd rfl hp
    | cons n r => exact hk.parent n r (by rw [hd]; simp)
  obtain ⟨k1, e1, t1, d1, g1, f1⟩ := folder_other k hk p hd ms (clear_of hk _ (Or.inr ⟨hn, by rw [htail]; exact hpt⟩))
  have hlen : (stamped p ms).length = p.length := by
    cases p with
    | nil => exact absurd rfl hp
    | cons n r => rfl
  have hb : ∀ s, stamped p ms <:+ s → s ≠ stamped p ms → k1 s = none := by
    intro s hs hne
    rw [f1 s fun h => hne (h.eq_of_length (Nat.le_antisymm h.length_le hs.length_le)), hk.below_none _ hn s hs]
  have hcn : k1 (configName :: stamped p ms) = none := hb _ (List.suffix_cons _ _) (suffix_cons_ne _ _ _ (List.suffix_refl _)).symm
  have w1 := writeText_ok k1 configName (stamped p ms) d1 (by rw [hcn]; simp) config
  have t2 := put_file_tree k1 t1 configName (stamped p ms) d1 (by rw [hcn]; simp) (.text config)
  set k2 := put k1 (configName :: stamped p ms) (.file (.text config)) with hk2
  have hat : ∀ q, q ≠ configName :: stamped p ms → k2 q = k1 q := by intro q hq; rw [hk2]; unfold put; rw [if_neg hq]
  -- nothing below `p` is below the new folder
  have hapart : ∀ s : Path, p <:+ s → ¬ stamped p ms <:+ s := by
    intro s h1 h2
    have h3 := List.suffix_of_suffix_length_le h2 h1 (by omega)
    exact stamped_ne p ms (h3.eq_of_length hlen)
  have hsame : ∀ s : Path, p <:+ s → k2 s = k s := by
    intro s hs
    rw [hat s (by rintro rfl; exact hapart _ hs (List.suffix_cons _ _))]
    by_cases h : s <:+ stamped p ms
    · rcases stamped_below_only p hp ms s h with h' | h'
      · exact absurd (h' ▸ List.suffix_refl _) (hapart s hs)
      · have h4 := h'.length_le
        have h5 := hs.length_le
        have h6 : p.length ≠ 0 := by cases p with
          | nil => exact absurd rfl hp
          | cons => simp
        simp at h4
        omega
    · exact f1 s h
  have hp2 : k2 p = some .dir := by rw [hsame p (List.suffix_refl _)]; exact hd
  have hsd : p <:+ stamped (defaultLabel :: p) ms' := List.suffix_cons _ _
  obtain ⟨k3, q, e3, hq, hqn, d3, v3, f3⟩ := saveKnowledge_keep k2 t2 p hp2 defaultLabel ms' files (by
    rw [hsame _ (List.suffix_cons _ _), hsame _ hsd]; exact hw)
  have hpq : p <:+ q := by
    rcases hq with rfl | rfl
    · exact List.suffix_cons _ _
    · exact hsd
  have hout : ∀ s, stamped p ms <:+ s → ¬ q <:+ s := fun s h1 h2 => hapart s (hpq.trans h2) h1
  refine ⟨k3, q, ?_, hq, by rw [← hsame q hpq]; exact hqn, ?_, v3, ?_, ?_⟩
  · unfold saveAs
    rw [e1]
    simp only [Option.bind_some]
    rw [w1]
    exact e3
  · rw [f3 _ (hout _ (List.suffix_cons _ _)), hk2]
    unfold put; rw [if_pos rfl]
  · intro s h1 h2 h3
    rw [f3 s (hout s h1), hat s h3]
    exact hb s h1 h2
  · intro s hs
    have hkq : k q = none := by rw [← hsame q hpq]; exact hqn
    rw [f3 s (fun h => hs (hk.below_none q hkq s h)), hat s (by
      rintro rfl
      exact hs (hk.below_none _ hn _ (List.suffix_cons _ _)))]
    exact g1 s hs

/-- C59, violated: whenever the folder exists and must not be replaced, the configuration is saved in a new folder that contains nothing else, while the weights go to the old folder. -/
theorem C59_violated (num : Str → Bool) (net : Net T) (rows : List (List Str)) (hm : metadata net.settings net.dsl = some rows) (l : List (Nat × Part))
    (hl : slots net.dsl = some l) (k : Disk T) (hk : Tree k) (p : Path) (hp : p ≠ []) (hd : k p = some .dir) (ms ms' : Nat) (hn : k (stamped p ms) = none)
    (hw : k (defaultLabel :: p) = none ∨ k (defaultLabel :: p) = some .dir ∧ k (stamped (defaultLabel :: p) ms') = none) :
    ∃ k' q, saveNet num k p false ms ms' net = some k' ∧ (q = defaultLabel :: p ∨ q = stamped (defaultLabel :: p) ms') ∧
      k' (configName :: stamped p ms) = some (.file (.text (configText num rows))) ∧
      (∀ s ∈ l, k' (fileName s :: q) = some (.file (.tensor (net.weights s)))) ∧
      ∀ s, stamped p ms <:+ s → s ≠ stamped p ms → s ≠ configName :: stamped p ms → k' s = none := by
  obtain ⟨k', q, e, hq, _, h1, h2, h3, _⟩ := saveAs_keep k hk p hp hd ms ms' hn hw (configText num rows) (l.map fun s => (fileName s, net.weights s))
  refine ⟨k', q, ?_, hq, h1, ?_, h3⟩
  · unfold saveNet; rw [hm, hl]; exact e
  · intro s hs
    refine h2 (fileName s, net.weights s) (List.mem_map.2 ⟨s, hs, rfl⟩) ?_
    intro g hg he
    obtain ⟨s', _, rfl⟩ := List.mem_map.1 hg
    simp only at he ⊢
    rw [fileName_injective he]

/-- C59, violated: a model with at least one layer with weights that is saved this way cannot be loaded from its new folder. -/
theorem C59_load_violated (ops : List Op) (hu : ∀ o ∈ ops, o.Usual) (net : Net T) (hrun : run ops = some net.dsl) (hst : Storable net.settings net.dsl)
    (hdf : DepthFirst net.dsl) (v : Nat) (x) (hv : vertexAt net.dsl v = some x) (hx : parts x.1 ≠ []) (num : Str → Bool) (k : Disk T) (hk : Tree k) (p : Path)
    (hp : p ≠ []) (hd : k p = some .dir) (ms ms' : Nat) (hn : k (stamped p ms) = none)
    (hw : k (defaultLabel :: p) = none ∨ k (defaultLabel :: p) = some .dir ∧ k (stamped (defaultLabel :: p) ms') = none) :
    ∃ k', saveNet num k p false ms ms' net = some k' ∧ loadNet k' (stamped p ms) = none := by
  have hs := run_sound ops hu net.dsl hrun
  have hroot := DepthFirst.rooted hdf
  obtain ⟨rows, em, hload⟩ := C60_description ops hu net.dsl hrun net.settings hst hdf
  obtain ⟨l, el, hl⟩ := slots_ok net.dsl hs.forward hroot
  obtain ⟨k', q, e, _, h1, _, h3⟩ := C59_violated num net rows em l el k hk p hp hd ms ms' hn hw
  refine ⟨k', e, ?_⟩
  unfold loadNet
  rw [h1]
  dsimp only
  rw [records_back num net.dsl net.settings hs.forward hroot rows em, Option.bind_some, hload, Option.bind_some]
  dsimp only
  obtain ⟨pt, pts, hpt⟩ := List.exists_cons_of_ne_nil hx
  have hin : (v, pt) ∈ l := (hl v pt).2 ⟨x, hv, by rw [hpt]; simp⟩
  have hnone : ∀ s, readTensor k' (fileName s :: defaultLabel :: stamped p ms) = none := by
    intro s
    unfold readTensor
    rw [h3 _ ((List.suffix_cons _ _).trans (List.suffix_cons _ _)) (by
      intro h
      have := congrArg List.length h
      simp only [List.length_cons] at this
      omega) (by
      intro h
      have := congrArg List.length h
      simp at this)]
  unfold loadKnowledge
  rw [el, Option.bind_some]
  cases l with
  | nil => cases hin
  | cons s l =>
    rw [List.mapM_cons, hnone]
    rfl

/-- C103. Saving without overwriting leaves every file and folder that was there as it is, if the names with the time stamp are free. -/
theorem C103_partial (num : Str → Bool) (net : Net T) (rows : List (List Str)) (hm : metadata net.settings net.dsl = some rows) (l : List (Nat × Part))
    (hl : slots net.dsl = some l) (k : Disk T) (hk : Tree k) (p : Path) (hp : p ≠ []) (hc : Clear k p) (ms ms' : Nat) (hn : k (stamped p ms) = none)
    (hw : k (defaultLabel :: p) = none ∨ k (defaultLabel :: p) = some .dir ∧ k (stamped (defaultLabel :: p) ms') = none) :
    ∃ k', saveNet num k p false ms ms' net = some k' ∧ ∀ s, k s ≠ none → k' s = k s := by
  cases hd : k p with
  | none =>
    obtain ⟨k', e, _, _, h3, _⟩ := C59_partial num net rows hm l hl k hk p hp hc false (Or.inr hd) ms ms'
    exact ⟨k', e, fun s hs => h3 s (fun h => hs (hk.below_none p hd s h)) hs⟩
  | some en =>
    cases en with
    | file c => exact absurd hd (hc p (List.suffix_refl _) c)
    | dir =>
      obtain ⟨k', q, e, _, _, _, _, _, h⟩ := saveAs_keep k hk p hp hd ms ms' hn hw (configText num rows) (l.map fun s => (fileName s, net.weights s))
      exact ⟨k', by unfold saveNet; rw [hm, hl]; exact e, h⟩

/-- A disk with the folders of two models; the second has the name that the first would get at time 7. -/
def twoModels : Disk Nat := fun p =>
  if p = [] ∨ p = [text "repo"] ∨ p = savePath ∨ p = stamped savePath 7 then some .dir
  else if p = configName :: stamped savePath 7 then some (.file (.text [1, 2, 3]))
  else none

/-- A chain of two layers. -/
def chainOps : List Op := [.input ⟨1, 3, 1⟩ ⟨1, 3, 1⟩ .full .relu false, .layer 1 ⟨1, 3, 1⟩ ⟨1, 3, 1⟩ .full .relu true]

/-- C103, violated: if the name with the time stamp is in use, the configuration of that other model is replaced. -/
theorem C103_violated :
    ((netOf chainOps).bind fun net => (saveNet Csv.isFloat twoModels savePath false 7 8 net).map fun k =>
      (decide (twoModels (configName :: stamped savePath 7) = some (.file (.text [1, 2, 3]))), decide (k (configName :: stamped savePath 7) = some (.file (.text [1, 2, 3]))))) =
    some (true, false) := by
  decide +kernel

/-- The hypotheses of `C59_violated`, `C59_load_violated` and `C103_partial` are met on that disk at other times. -/
example : twoModels savePath = some .dir ∧ twoModels (stamped savePath 9) = none ∧ twoModels (defaultLabel :: savePath) = none ∧
    ((run chainOps).map fun d => decide (Storable sampleSettings d ∧ DepthFirst d)) = some true ∧
    ((run chainOps).map fun d => (vertexAt d 1).map fun x => parts x.1) = some (some [.full]) := by
  decide +kernel

/-- C104, violated: whenever a model is saved over an existing one, all knowledge saved under other labels is deleted. -/
theorem C104_violated (num : Str → Bool) (net : Net T) (rows : List (List Str)) (hm : metadata net.settings net.dsl = some rows) (l : List (Nat × Part))
    (hl : slots net.dsl = some l) (k : Disk T) (hk : Tree k) (p : Path) (hp : p ≠ []) (hd : k p = some .dir) (ms ms' : Nat) (label : Str) (h : label ≠ defaultLabel) :
    ∃ k', saveNet num k p true ms ms' net = some k' ∧ ∀ f, k' (f :: label :: p) = none := by
  obtain ⟨k', e, _, _, _, h4⟩ := C59_partial num net rows hm l hl k hk p hp (clear_of hk p (Or.inl hd)) true (Or.inl rfl) ms ms'
  refine ⟨k', e, fun f => ?_⟩
  have hlen : ∀ a : Str, (f :: label :: p : Path) ≠ a :: p := by
    intro a he
    have := congrArg List.length he
    simp at this
  apply h4 _ ((List.suffix_cons _ _).trans (List.suffix_cons _ _))
  · intro he
    have := congrArg List.length he
    simp only [List.length_cons] at this
    omega
  · exact hlen _
  · exact hlen _
  · intro s _ he
    simp only [List.cons.injEq, and_true] at he
    exact h he.2

/-! ### Labels -/

theorem loadKnowledge_congr (k k' : Disk T) (p : Path) (label : Str) (d : Dsl) (h : ∀ f, k' (f :: label :: p) = k (f :: label :: p)) :
    loadKnowledge k' p label d = loadKnowledge k p label d := by
  unfold loadKnowledge readTensor
  simp only [h]

/-- C105. Knowledge saved under a label, replacing what was there, is what loading that label gives back; loading any other label gives what it gave before. -/
theorem C105_save (d : Dsl) (l : List (Nat × Part)) (hl : slots d = some l) (w : Nat × Part → T) (k : Disk T) (hk : Tree k) (p : Path) (label : Str)
    (hc : Clear k (label :: p)) (ms : Nat) :
    ∃ k', saveKnowledge k p label true ms (l.map fun s => (fileName s, w s)) = some k' ∧
      loadKnowledge k' p label d = some (l.map fun s => (s, w s)) ∧
      ∀ other, other ≠ label → ∀ d', loadKnowledge k' p other d' = loadKnowledge k p other d' := by
  obtain ⟨k1, e1, t1, d1, b1, f1, g1⟩ := folder_fresh k hk (label :: p) (by simp) hc true ms (Or.inl rfl)
  obtain ⟨w1, v1⟩ := writes_ok (l.map fun s => (fileName s, w s)) k1 (label :: p) d1 (by
    intro n
    rw [b1 _ (List.suffix_cons _ _) (suffix_cons_ne _ _ _ (List.suffix_refl _)).symm]; simp)
  refine ⟨(l.map fun s => (fileName s, w s)).foldl (fun k f => writeTensor k (f.1 :: label :: p) f.2) k1, by unfold saveKnowledge; rw [e1]; rfl, ?_, ?_⟩
  · unfold loadKnowledge
    rw [hl, Option.bind_some, mapM_all _ (fun s => (s, w s))]
    intro s hs
    unfold readTensor
    have hv := v1 (fileName s, w s) (List.mem_map.2 ⟨s, hs, rfl⟩) (by
      intro g hg he
      obtain ⟨s', _, rfl⟩ := List.mem_map.1 hg
      simp only at he ⊢
      rw [fileName_injective he])
    simp only at hv
    rw [hv]
    rfl
  · intro other hne d'
    apply loadKnowledge_congr
    intro f
    have hfd : ¬ (label :: p) <:+ (f :: other :: p) := by
      intro h
      rcases List.suffix_cons_iff.1 h with h | h
      · have := congrArg List.length h
        simp at this
      · have := h.eq_of_length (by simp)
        simp only [List.cons.injEq, and_true] at this
        exact hne this.symm
    rw [w1 _ (by
      intro n _ he
      simp only [List.cons.injEq, and_true] at he
      exact hne he.2)]
    apply f1 _ hfd
    intro h
    have := h.length_le
    simp at this

/-- C105. Removing a label removes its weights and no others. -/
theorem C105_remove (k : Disk T) (p : Path) (label : Str) :
    (∀ f, readTensor (removeKnowledge k p label) (f :: label :: p) = none) ∧
      ∀ other, other ≠ label → ∀ d', loadKnowledge (removeKnowledge k p label) p other d' = loadKnowledge k p other d' := by
  refine ⟨?_, ?_⟩
  · intro f
    unfold readTensor removeKnowledge removeAll
    rw [if_pos (List.suffix_cons _ _)]
  · intro other hne d'
    apply loadKnowledge_congr
    intro f
    unfold removeKnowledge removeAll
    rw [if_neg]
    intro h
    rcases List.suffix_cons_iff.1 h with h | h
    · have := congrArg List.length h
      simp at this
    · have := h.eq_of_length (by simp)
      simp only [List.cons.injEq, and_true] at this
      exact hne this.symm

/-- `C105_save` applies to a network on an existing model's disk. -/
example : ((run joinedOps).bind slots).isSome ∧ Tree emptyDisk ∧ Clear emptyDisk (text "epoch1" :: savePath) :=
  ⟨by decide +kernel, emptyDisk_tree, emptyDisk_clear _⟩

end Verif.ModelFiles
