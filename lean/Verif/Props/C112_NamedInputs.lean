import Verif.Lemmas.SamePredictions
import Verif.Props.C51_C52_Encoders
import Verif.Props.C111_TaskInputs

/-!
C112: executing a label task with named inputs predicts what the network predicts for the same record in a dataset.
-/

namespace Verif.LabelNetwork
open Verif Verif.Enums Verif.Dsl Verif.Wiring Verif.Views Verif.Layers Verif.Tensor

/-! ### Specification -/

/-- The same prediction: in both cases none, in both cases an exception, or the same elements. -/
def SamePrediction (a b : Option (Option (Tensor ℝ))) : Prop :=
  match a, b with
  | none, none => True
  | some a, some b => SameResult a b
  | _, _ => False

/-- The columns for which exchanging rows and columns does not matter: several columns, or a single one with several rows; in both cases a single row, or a single
column, has a single channel. Or a single value. -/
def Insensitive (n : LabelNet) : Prop :=
  match n.given with
  | [] => False
  | [g] => n.image = false ∧ ((1 < g.rows ∧ (g.cols = 1 → g.chans = 1)) ∨ g = ⟨1, 1, 1⟩)
  | l => ∀ s ∈ l, s.rows = 1 ∨ s.cols = 1 → s.chans = 1

/-! ### The network -/

theorem no_convolution (n : LabelNet) (h : Insensitive n) (e : Vertex × List Nat) (he : e ∈ vertices n) : e.1.kind ≠ .convolution2dValid := by
  have hfirst : (firstV n).kind ≠ .convolution2dValid := by
    unfold firstV
    unfold Insensitive at h
    split
    · rename_i g hg
      rw [hg] at h
      rw [if_neg (by rw [h.1]; simp)]
      simp [tuned, plainV]
    · simp [tuned, plainV]
  unfold vertices hiddenVs upToFirst before at he
  simp only [List.mem_append, List.mem_singleton] at he
  rcases he with (((((he | rfl) | rfl) | rfl) | rfl) | he) | he
  · split at he
    · cases he
    · simp only [List.mem_append, List.mem_singleton, List.mem_map] at he
      rcases he with ⟨s, _, rfl⟩ | rfl
      · simp [flatV, plainV]
      · simp [concatenation]
  · exact hfirst
  · simp [dropV, plainV]
  · simp [secondV, tuned, plainV]
  · simp [dropV, plainV]
  · split at he
    · rw [List.mem_singleton] at he
      subst he
      simp [extraV, plainV]
    · cases he
  · rw [List.mem_map] at he
    obtain ⟨s, _, rfl⟩ := he
    simp [outV, plainV]

theorem input_vertex (n : LabelNet) (h1 : 1 < n.given.length) (i : Nat) (hi : i < n.given.length) :
    vertexAt (vertices n) (i + 1) = some (flatV n.given[i], []) := by
  unfold vertices hiddenVs upToFirst before
  rw [if_neg (by omega)]
  iterate 7 apply vertexAt_left
  unfold vertexAt
  rw [if_neg (by omega), Nat.add_sub_cancel, List.getElem?_map, List.getElem?_eq_getElem hi]
  rfl

theorem first_vertex (n : LabelNet) (h1 : n.given.length = 1) : vertexAt (vertices n) 1 = some (firstV n, []) := by
  unfold vertices hiddenVs
  iterate 5 apply vertexAt_left
  unfold upToFirst before firstParents
  rw [if_pos (by omega), if_pos (by omega)]
  rfl

theorem column_get (ts : List (Tensor ℝ)) (i : Nat) (hi : i < ts.length) : column ts (i + 1) = ts[i] := by
  unfold column
  rw [Nat.add_sub_cancel, List.getD_eq_getElem?_getD, List.getElem?_eq_getElem hi, Option.getD_some]

/-- The inputs of the network. -/
theorem heads_same (n : LabelNet) (h : Insensitive n) (p : Nat → Params) (hp : ∀ v, (p v).Local) (ts us : List (Tensor ℝ)) (hts : List.Forall₂ HasShape ts n.given)
    (htu : List.Forall₂ Exchanged ts us) (v : Nat) (x : Vertex × List Nat) (hx : vertexAt (vertices n) v = some x) (ha : x.1.accepts = true) :
    SameResult (vertexLayer (vertices n) p v [some (column ts v)]) (vertexLayer (vertices n) p v [some (column us v)]) ∧
      (1 < n.given.length → ∀ t, vertexLayer (vertices n) p v [some (column ts v)] = some t → t.chans = 1) := by
  have hg : n.given ≠ [] := by
    intro h0
    unfold Insensitive at h
    rw [h0] at h
    exact h
  obtain ⟨i, hi, rfl, _⟩ := input_shapes n hg v x hx ha
  have hc := no_convolution n h x (vertexAt_mem _ _ _ hx)
  have hit : i < ts.length := by rw [hts.length_eq]; exact hi
  have hiu : i < us.length := by rw [← htu.length_eq]; exact hit
  have hsh := (List.forall₂_iff_get.1 hts).2 i hit hi
  have hex := (List.forall₂_iff_get.1 htu).2 i hit hiu
  simp only [List.get_eq_getElem] at hsh hex
  rw [column_get ts i hit, column_get us i hiu]
  generalize ts[i] = t at hsh hex
  generalize us[i] = u at hex
  obtain ⟨s1, s2, s3⟩ := hsh
  by_cases h1 : 1 < n.given.length
  · have hall : ∀ s ∈ n.given, s.rows = 1 ∨ s.cols = 1 → s.chans = 1 := by
      unfold Insensitive at h
      split at h
      · exact h.elim
      · rename_i g hg
        rw [hg] at h1
        simp at h1
      · exact h
    have hs := hall n.given[i] (List.getElem_mem hi)
    rw [input_vertex n h1 i hi] at hx
    cases hx
    have hl : parts (p (i + 1)) (flatV n.given[i]) = some [.flatten] := rfl
    refine ⟨flat_vertex_same _ p _ (hp _) _ (input_vertex n h1 i hi) hc [] hl t u
      (exchanged_flat t u hex (by rw [s1, s3]; exact fun e => hs (Or.inl e)) (by rw [s2, s3]; exact fun e => hs (Or.inr e))), ?_⟩
    intro _ z hz
    have hz' : vertexLayer (vertices n) p (i + 1) [some t] = some (flattenForward t) := by
      unfold vertexLayer
      rw [input_vertex n h1 i hi, Option.bind_some]
      simp only [hl]
      rfl
    rw [hz'] at hz
    cases hz
    have := (flat_row t (by rw [s1, s3]; exact fun e => hs (Or.inl e))).2.2.1
    rw [this]
    rfl
  · have hl : n.given.length = 1 := by omega
    obtain ⟨g, hgl⟩ := List.length_eq_one_iff.1 hl
    have hi0 : i = 0 := by omega
    subst hi0
    refine ⟨?_, fun h => absurd h h1⟩
    unfold Insensitive at h
    simp only [hgl] at h
    simp only [hgl, List.getElem_cons_zero] at s1 s2 s3
    have hfv : firstV n = tuned n { plainV .full g ⟨1, widthGiven n, 1⟩ false true n.act with bias := true } := by
      unfold firstV
      rw [hgl]
      simp [h.1]
    have hx' := first_vertex n hl
    rw [hx'] at hx
    cases hx
    rcases h.2 with ⟨h1, h2⟩ | h2
    · have hparts : ∃ l, parts (p (0 + 1)) (firstV n) = some (.flatten :: l) := by
        rw [hfv]
        simp [parts, mainParts, tuned, plainV, flattenFirst, h1]
      obtain ⟨l, hl'⟩ := hparts
      exact flat_vertex_same _ p _ (hp _) _ hx' hc l hl' t u (exchanged_flat t u hex (by omega) (by rw [s2, s3]; exact h2))
    · subst h2
      exact vertex_same _ p _ (hp _) _ hx' hc _ _ (.cons (exchanged_one t u hex s1 s2 s3) .nil) t.chans (by
        intro z hz
        rw [List.mem_singleton] at hz
        cases hz
        rfl)

/-- All layers. -/
theorem values_same (n : LabelNet) (h : Insensitive n) (p : Nat → Params) (hp : ∀ v, (p v).Local) (ts us : List (Tensor ℝ)) (hts : List.Forall₂ HasShape ts n.given)
    (htu : List.Forall₂ Exchanged ts us) (val val' : Nat → Option (Tensor ℝ)) (hv : Computes (vertices n) p ts val) (hv' : Computes (vertices n) p us val') (v : Nat)
    (x : Vertex × List Nat) (hx : vertexAt (vertices n) v = some x) : SameResult (val v) (val' v) := by
  have hg : n.given ≠ [] := by
    intro h0
    unfold Insensitive at h
    rw [h0] at h
    exact h
  have hfw := (allSound n hg).forward
  induction v using Nat.strong_induction_on generalizing x with
  | _ v ih =>
    rw [hv v x hx, hv' v x hx]
    by_cases ha : x.1.accepts = true
    · rw [if_pos ha, if_pos ha]
      exact (heads_same n h p hp ts us hts htu v x hx ha).1
    · rw [if_neg ha, if_neg ha]
      have hps : parentsAt (vertices n) v = x.2 := by unfold parentsAt; rw [hx]; rfl
      have hpar : ∀ q ∈ x.2, q < v ∧ ∃ y, vertexAt (vertices n) q = some y := by
        intro q hq
        rw [← hps] at hq
        have h1 := hfw v q hq
        have h2 := vertexAt_range _ _ _ hx
        exact ⟨by omega, vertexAt_of_le _ q (by omega) (by omega)⟩
      have hall : List.Forall₂ SameResult (x.2.map val) (x.2.map val') := by
        rw [List.forall₂_map_left_iff, List.forall₂_map_right_iff, List.forall₂_same]
        intro q hq
        obtain ⟨h1, y, hy⟩ := hpar q hq
        exact ih q h1 y hy
      have hc := no_convolution n h x (vertexAt_mem _ _ _ hx)
      by_cases hone : ∃ q, x.2 = [q]
      · obtain ⟨q, hq⟩ := hone
        rw [hq] at hall ⊢
        cases hvq : val q with
        | none =>
          rw [List.map_singleton, List.map_singleton, hvq] at hall
          rw [List.map_singleton, List.map_singleton, hvq]
          exact vertex_same _ p v (hp v) x hx hc _ _ hall 0 (by simp)
        | some t =>
          rw [List.map_singleton, List.map_singleton, hvq] at hall
          rw [List.map_singleton, List.map_singleton, hvq]
          exact vertex_same _ p v (hp v) x hx hc _ _ hall t.chans (by
            intro z hz
            rw [List.mem_singleton] at hz
            cases hz
            rfl)
      · obtain ⟨p1, p2, p3, p4⟩ := parents_at n
        have hr := vertexAt_range _ _ _ hx
        rw [vertices_length] at hr
        have hb : 1 < n.given.length ∧ x.2 = List.range' 1 n.given.length := by
          have hpos := List.length_pos_iff.2 hg
          rcases Nat.lt_trichotomy v (base n) with hlt | heq | hgt
          · have : v ∈ heads (vertices n) := by
              rw [heads_vertices n hg, List.mem_range'_1]
              unfold base at hlt
              split at hlt <;> omega
            obtain ⟨y, hy, hya⟩ := (mem_heads _ _).1 this
            rw [hx] at hy
            cases hy
            exact absurd hya ha
          · by_cases h1 : 1 < n.given.length
            · refine ⟨h1, ?_⟩
              rw [← hps, heq, p4 h1]
            · have hv1 : v = 1 := by
                rw [heq]
                unfold base
                rw [if_pos (by omega)]
              have : v ∈ heads (vertices n) := by
                rw [heads_vertices n hg, List.mem_range'_1]
                omega
              obtain ⟨y, hy, hya⟩ := (mem_heads _ _).1 this
              rw [hx] at hy
              cases hy
              exact absurd hya ha
          · have := (chain_lineage n hg v hgt (by omega)).1
            rw [hps, List.length_eq_one_iff] at this
            exact absurd this hone
        refine vertex_same _ p v (hp v) x hx hc _ _ hall 1 ?_
        intro t ht
        rw [List.mem_map] at ht
        obtain ⟨q, hq, hqt⟩ := ht
        obtain ⟨_, y, hy⟩ := hpar q hq
        have hh : q ∈ heads (vertices n) := by rw [heads_vertices n hg, ← hb.2]; exact hq
        obtain ⟨z, hz, hza⟩ := (mem_heads _ _).1 hh
        rw [hv q z hz, if_pos hza] at hqt
        exact (heads_same n h p hp ts us hts htu q z hz hza).2 hb.1 t hqt

/-- C112 for the network: given tensors with rows and columns exchanged lead to the same predictions. Missing: columns that are not `Insensitive`
(`C112_row_violated`, and images). -/
theorem C112_network_partial (n : LabelNet) (h : Insensitive n) (p : Nat → Params) (hp : ∀ v, (p v).Local) (ts us : List (Tensor ℝ))
    (hts : List.Forall₂ HasShape ts n.given) (htu : List.Forall₂ Exchanged ts us) :
    ∃ ops d rs rs', labelOps n = some ops ∧ run ops = some d ∧ predict d p ts = some rs ∧ predict d p us = some rs' ∧ rs.length = n.expected.length ∧
      List.Forall₂ SamePrediction rs rs' := by
  have hg : n.given ≠ [] := by
    intro h0
    unfold Insensitive at h
    rw [h0] at h
    exact h
  obtain ⟨ops, h1, h2⟩ := labelOps_ok n hg
  obtain ⟨_, val, _, _, _, _, v5, v6⟩ := predict_eval n hg p ts hts.length_eq
  obtain ⟨_, val', _, _, _, _, w5, w6⟩ := predict_eval n hg p us (by rw [← htu.length_eq, hts.length_eq])
  refine ⟨ops, vertices n, _, _, h1, h2, v6, w6, by simp, ?_⟩
  rw [List.forall₂_map_left_iff, List.forall₂_map_right_iff, List.forall₂_same]
  intro i hi
  exact values_same n h p hp ts us hts htu val val' v5 w5 _ _ (vertexAt_out n i (List.mem_range.1 hi))

/-! ### The encoders -/

/-- All elements are numbers, not the result of a division by zero. -/
def Holds (T : Tensor (Option ℝ)) (t : Tensor ℝ) : Prop :=
  T.rows = t.rows ∧ T.cols = t.cols ∧ T.chans = t.chans ∧ ∀ r c k, r < t.rows → c < t.cols → k < t.chans → T.get r c k = some (t.get r c k)

open Verif.Encoders in
/-- The words of a record and the values in a script denote the same: the same numbers, or the same label of a column with distinct labels. -/
def SameInput {V : Type} (num : TextCodec.Str → Option ℝ) (asFloat : V → Option ℝ) (toText : V → TextCodec.Str) (m : Encoders.Meta ℝ) (words : List TextCodec.Str)
    (values : List V) : Prop :=
  (m.purpose = 'N' ∧ SameNumbers num asFloat words values ∧ 0 < m.cols) ∨
    (m.purpose = 'L' ∧ m.rows = 1 ∧ m.chans = 1 ∧ m.cols = m.labels.length ∧ m.labels.Nodup ∧
      ∃ w v, words = [w] ∧ values = [v] ∧ toText v = Csv.strip w ∧ Csv.strip w ∈ m.labels)

theorem exchange (T U : Tensor (Option ℝ)) (h1 : U.rows = T.cols) (h2 : U.cols = T.rows) (h3 : U.chans = T.chans) (h : ∀ p, p < T.size → offsetGet U p = offsetGet T p)
    (t : Tensor ℝ) (ht : Holds T t) : ∃ u, Holds U u ∧ Exchanged t u := by
  obtain ⟨a, b, d, e⟩ := ht
  have hsz : T.size = t.size := by unfold Tensor.size; rw [a, b, d]
  have hoff : ∀ p, p < t.size → offsetGet T p = some (offsetGet t p) := by
    intro p hp
    obtain ⟨b1, b2, b3⟩ := offset_bounds _ _ _ _ hp
    unfold offsetGet
    rw [a, b]
    exact e _ _ _ b1 b2 b3
  have hU : ∀ r c k, r < U.rows → c < U.cols → k < U.chans → U.get r c k = some ((U.get r c k).getD 0) := by
    intro r c k hr hc hk
    have hlt : position U.rows U.cols r c k < t.size := by
      have := C29_position_lt U.rows U.cols U.chans r c k hr hc hk
      unfold Tensor.size
      rw [h1, h2, h3] at this
      rw [← a, ← b, ← d, Nat.mul_comm T.rows]
      rw [h1, h2]
      exact this
    have := h _ (hsz ▸ hlt)
    rw [C29_offset_get U r c k hr hc, hoff _ hlt] at this
    rw [this]
    rfl
  refine ⟨⟨U.rows, U.cols, U.chans, fun r c k => (U.get r c k).getD 0⟩, ⟨rfl, rfl, rfl, hU⟩, ?_, ?_, ?_, ?_⟩
  · show U.rows = t.cols
    rw [h1, b]
  · show U.cols = t.rows
    rw [h2, a]
  · show U.chans = t.chans
    rw [h3, d]
  · rw [values_eq_offsets, values_eq_offsets]
    have hs : (⟨U.rows, U.cols, U.chans, fun r c k => (U.get r c k).getD 0⟩ : Tensor ℝ).size = t.size := by
      unfold Tensor.size
      simp only
      rw [h1, h2, h3, a, b, d, Nat.mul_comm t.cols]
    rw [hs]
    apply List.map_congr_left
    intro p hp
    rw [List.mem_range] at hp
    show (offsetGet U p).getD 0 = _
    rw [h p (hsz ▸ hp), hoff p hp]
    rfl

theorem offsetGet_tensorOf (a b k : Nat) (xs : List ℝ) (p : Nat) (h : p < a * b * k) : offsetGet (Encoders.tensorOf a b k xs) p = xs.getD p 0 := by
  obtain ⟨r, c, j, hr, hc, hk, rfl⟩ := C29_position_surjective a b k p h
  have := C29_offset_get (Encoders.tensorOf a b k xs) r c j hr hc
  simp only [Encoders.tensorOf] at this ⊢
  rw [this]
  congr 1
  unfold position
  ring

open Verif.Encoders in
/-- What a script passes to the network for a column, compared with what the dataset holds. -/
theorem encoders_exchange {V : Type} (num : TextCodec.Str → Option ℝ) (asFloat : V → Option ℝ) (toText : V → TextCodec.Str) (pixel : ℝ → ℝ) (m : Encoders.Meta ℝ)
    (words : List TextCodec.Str) (vs : List V) (h : SameInput num asFloat toText m words vs) (T : Tensor (Option ℝ)) (hT : datasetEncode num pixel m words = .ok T)
    (t : Tensor ℝ) (ht : Holds T t) :
    HasShape t ⟨m.rows, m.cols, m.chans⟩ ∧ ∃ U u, variantEncode asFloat toText pixel m vs = .ok U ∧ Holds U u ∧ Exchanged t u := by
  rcases h with ⟨hm, hs, hc⟩ | ⟨hm, hr, hk, hc, hn, w, v, rfl, rfl, hv, hl⟩
  · rw [C51_number_exchanged num asFloat toText pixel m hm words vs hs]
    unfold datasetEncode scalarEncode encodeValues at hT ⊢
    simp only [hm, show ('N' : Char) ≠ 'I' by decide, if_false, if_true] at hT ⊢
    rw [Nat.mul_comm m.rows m.cols] at hT
    cases hx : readValues (fun w => stringToFloat num (Csv.strip w)) (m.chans * (m.cols * m.rows)) words with
    | throws => rw [hx] at hT; simp [Out.map] at hT
    | undefined => rw [hx] at hT; simp [Out.map] at hT
    | ok xs =>
      rw [hx] at hT
      simp only at hT
      split at hT
      · simp [Out.map] at hT
      · rename_i hne
        simp only [Out.map, Out.ok.injEq] at hT
        subst hT
        simp only
        rw [if_neg (by omega)]
        obtain ⟨u, hu, hex⟩ := exchange (scaled m.column (tensorOf m.rows m.cols m.chans xs)) (scaled m.column (tensorOf m.cols m.rows m.chans xs)) rfl rfl rfl (by
          intro p hp
          have hp1 : p < m.rows * m.cols * m.chans := hp
          show Statistics.encode m.column (offsetGet (tensorOf m.cols m.rows m.chans xs) p) = Statistics.encode m.column (offsetGet (tensorOf m.rows m.cols m.chans xs) p)
          rw [offsetGet_tensorOf _ _ _ _ _ hp1, offsetGet_tensorOf _ _ _ _ _ (by rw [Nat.mul_comm m.cols]; exact hp1)]) t ht
        exact ⟨⟨ht.1.symm, ht.2.1.symm, ht.2.2.1.symm⟩, _, u, rfl, hu, hex⟩
  · obtain ⟨S, U, e1, e2, a1, a2, a3, a4, a5, a6, a7⟩ := C51_label_transposed num asFloat toText pixel m hm hr hk hc hn w v hv hl
    rw [hT] at e1
    cases e1
    obtain ⟨u, hu, hex⟩ := exchange T U (by omega) (by omega) (by omega) (by
      intro p hp
      unfold Tensor.size at hp
      rw [a1, a5, Nat.one_mul, Nat.mul_one, a2] at hp
      unfold offsetGet
      rw [a1, a2, a3, a4, Nat.mul_one, Nat.one_mul, Nat.mod_eq_of_lt hp, Nat.div_eq_of_lt hp, Nat.div_one, Nat.mod_one, Nat.mod_eq_of_lt hp]
      exact a7 p hp) t ht
    exact ⟨⟨by rw [← ht.1, a1, hr], by rw [← ht.2.1, a2], by rw [← ht.2.2.1, a5, hk]⟩, U, u, e2, hu, hex⟩

/-- A given column of a task: its name and metadata, the words of a record of the dataset, and the values that a script gives. -/
structure Given (V : Type) where
  name : List Char
  info : Encoders.Meta ℝ
  words : List TextCodec.Str
  values : List V

theorem encode_all {V : Type} (num : TextCodec.Str → Option ℝ) (asFloat : V → Option ℝ) (toText : V → TextCodec.Str) (pixel : ℝ → ℝ) (gs : List (Given V))
    (hs : ∀ g ∈ gs, SameInput num asFloat toText g.info g.words g.values) (ts : List (Tensor ℝ))
    (hts : List.Forall₂ (fun g t => ∃ T, Encoders.datasetEncode num pixel g.info g.words = .ok T ∧ Holds T t) gs ts) :
    List.Forall₂ HasShape ts (gs.map fun g => ⟨g.info.rows, g.info.cols, g.info.chans⟩) ∧ ∃ Us us, List.Forall₂ (fun g U => Encoders.variantEncode asFloat toText pixel g.info g.values = .ok U) gs Us ∧ List.Forall₂ Holds Us us ∧
      List.Forall₂ Exchanged ts us := by
  induction hts with
  | nil => exact ⟨.nil, [], [], .nil, .nil, .nil⟩
  | @cons g t gs ts hT _ ih =>
    obtain ⟨h0, Us, us, h1, h2, h3⟩ := ih fun g hg => hs g (List.mem_cons_of_mem _ hg)
    obtain ⟨T, hT, ht⟩ := hT
    obtain ⟨a0, U, u, a1, a2, a3⟩ := encoders_exchange num asFloat toText pixel g.info g.words g.values (hs g List.mem_cons_self) T hT t ht
    exact ⟨.cons a0 h0, U :: Us, u :: us, .cons a1 h1, .cons a2 h2, .cons a3 h3⟩

open Verif.TaskInputs in
/-- C112: if for every given column the value written last under its name denotes the same as the words of a record, then executing the task with these inputs
hands tensors to the network for which it predicts the same as for the tensors of the record in the dataset. Missing: columns that are not `Insensitive`
(`C112_row_violated`), and images, whose values are not divided by 255 (`C51_violated`). -/
theorem C112_partial {V : Type} (num : TextCodec.Str → Option ℝ) (asFloat : V → Option ℝ) (toText : V → TextCodec.Str) (pixel : ℝ → ℝ) (n : LabelNet)
    (h : Insensitive n) (p : Nat → Params) (hp : ∀ v, (p v).Local) (gs : List (Given V)) (hs : ∀ g ∈ gs, SameInput num asFloat toText g.info g.words g.values)
    (hn : n.given = gs.map fun g => ⟨g.info.rows, g.info.cols, g.info.chans⟩) (written : List (List Char × List V))
    (hw : ∀ g ∈ gs, LastWritten written g.name g.values) (ts : List (Tensor ℝ))
    (hts : List.Forall₂ (fun g t => ∃ T, Encoders.datasetEncode num pixel g.info g.words = .ok T ∧ Holds T t) gs ts) :
    ∃ Us us ops d rs rs', execute (gs.map fun g => ⟨g.name, Encoders.variantEncode asFloat toText pixel g.info⟩) (inputMap written) = .predict Us ∧
      List.Forall₂ Holds Us us ∧ labelOps n = some ops ∧ run ops = some d ∧ predict d p ts = some rs ∧ predict d p us = some rs' ∧
      rs.length = n.expected.length ∧ List.Forall₂ SamePrediction rs rs' := by
  obtain ⟨hsh, Us, us, h1, h2, h3⟩ := encode_all num asFloat toText pixel gs hs ts hts
  obtain ⟨ops, d, rs, rs', w⟩ := C112_network_partial n h p hp ts us (hn ▸ hsh) h3
  refine ⟨Us, us, ops, d, rs, rs', ?_, h2, w⟩
  have hgets : List.Forall₂ (Gets written) (gs.map fun g => (⟨g.name, Encoders.variantEncode asFloat toText pixel g.info⟩ : Column (List V) (Tensor (Option ℝ)))) Us := by
    rw [List.forall₂_map_left_iff]
    refine List.Forall₂.imp ?_ ((List.forall₂_and_left _ _).2 ⟨hw, h1⟩)
    rintro g U ⟨hg, hU⟩
    exact ⟨g.values, hg, hU⟩
  refine (C111_partial written _ ?_ Us).2 hgets
  intro c hc v hv
  rw [List.mem_map] at hc
  obtain ⟨g, hg, rfl⟩ := hc
  rw [lastWritten_unique _ _ _ _ hv (hw g hg)]
  obtain ⟨i, hi, rfl⟩ := List.getElem_of_mem hg
  have := (List.forall₂_iff_get.1 h1).2 i hi (by rw [← h1.length_eq]; exact hi)
  simp only [List.get_eq_getElem] at this
  show Encoders.variantEncode asFloat toText pixel gs[i].info gs[i].values ≠ _
  rw [this]
  simp

/-- C112 fails for a single column with one row of several values (so, for a single label): the network predicts for the record of the dataset, but throws
an exception for the tensor of the script. -/
theorem C112_row_violated (n : LabelNet) (c : Nat) (hn : n.given = [⟨1, c, 1⟩]) (hi : n.image = false) (hc : 1 < c) (hs : c < 2 ^ 64) (hz : Sized n)
    (p : Nat → Params) (t u : Tensor ℝ) (ht : HasShape t ⟨1, c, 1⟩) (hu : Exchanged t u) :
    ∃ ops d rs, labelOps n = some ops ∧ run ops = some d ∧ predict d p [t] = some rs ∧ List.Forall₂ Predicted rs n.expected ∧
      predict d p [u] = some (List.replicate n.expected.length (some none)) := by
  have hg : n.given ≠ [] := by rw [hn]; simp
  have hl : n.given.length = 1 := by rw [hn]; rfl
  have hacc : Acceptable n := by
    unfold Acceptable total
    rw [hn]
    refine ⟨by simpa using hs, ?_⟩
    simp [hi]
  obtain ⟨ops, d, rs, val, h1, h2, h3, h4, _, _⟩ := C109_partial n hacc hz p [t] (by rw [hn]; exact .cons ht .nil)
  obtain ⟨ops', g1, g2⟩ := labelOps_ok n hg
  rw [g1] at h1
  cases h1
  rw [g2] at h2
  cases h2
  obtain ⟨w, val', _, _, _, _, w5, w6⟩ := predict_eval n hg p [u] (by rw [hl]; rfl)
  refine ⟨ops, vertices n, rs, g1, g2, h3, h4, ?_⟩
  rw [w6]
  congr 1
  refine first_throws n hg hl p [u] val' w5 ?_
  have hfirst := first_vertex n hl
  rw [w5 _ _ hfirst]
  unfold vertexLayer
  rw [hfirst, Option.bind_some]
  have hfv : firstV n = tuned n { plainV .full ⟨1, c, 1⟩ ⟨1, widthGiven n, 1⟩ false true n.act with bias := true } := by
    unfold firstV
    rw [hn]
    simp [hi]
  rw [hfv]
  obtain ⟨t1, t2, t3⟩ := ht
  obtain ⟨u1, u2, u3, _⟩ := hu
  have hm : matmul u ⟨wrapped ⟨1, c, 1⟩, wrapped ⟨1, widthGiven n, 1⟩, 1, fun r c _ => (p 1).weight r c⟩ = none := by
    unfold matmul
    rw [if_pos]
    simp only [wrapped, Nat.one_mul, Nat.mul_one]
    rw [wrap_of_lt _ hs, u2, t1]
    simp only
    omega
  have hf : Part.forward (.full ⟨⟨wrapped ⟨1, c, 1⟩, wrapped ⟨1, widthGiven n, 1⟩, 1, fun r c _ => (p 1).weight r c⟩, 0, none, [], []⟩) [u] = none := by
    show ((matmul u _).map _).map _ = _
    rw [hm]; rfl
  have hcol : column [u] 1 = u := rfl
  simp only [parts, mainParts, tuned, plainV, flattenFirst, Vertex.weighted, hcol, List.head?_cons, Option.map_some, Option.bind_some]
  simp [chain, hf]

/-- Two columns, a label and two numbers, meet the hypotheses about the columns. -/
example : Insensitive (labelNet [⟨1, 3, 1⟩, ⟨1, 2, 1⟩] [⟨1, 4, 1⟩] false .other 1) ∧
    SameInput (fun _ => none) (fun _ : Nat => none) (fun _ => [66]) ⟨'L', 1, 3, 1, [[65], [66], [67]], ⟨false, 0, 1, false, 0, 1⟩⟩ [[66]] [7] ∧
    SameInput (fun w => some w.length) (fun v : Nat => some v) (fun _ => []) ⟨'N', 1, 2, 1, [], ⟨false, 0, 1, false, 0, 1⟩⟩ [[66], [65, 65]] [1, 2] := by
  refine ⟨by simp [Insensitive, labelNet], Or.inr ⟨rfl, rfl, rfl, rfl, by decide, [66], 7, rfl, rfl, by decide, by decide⟩, Or.inl ⟨rfl, ?_, by simp⟩⟩
  refine .cons ?_ (.cons ?_ .nil)
  · rw [show Csv.strip [66] = [66] by decide]
    simp [Encoders.stringToFloat]
  · rw [show Csv.strip [65, 65] = [65, 65] by decide]
    simp [Encoders.stringToFloat]

/-- Weights for which the normalization, here by the sum of all elements, looks only at the elements. -/
example : Params.Local ⟨fun _ _ => 1, fun _ _ _ _ => 1, fun _ _ _ => 0, fun x r c k => x.get r c k - Statistics.sum x, 1⟩ := by
  intro x y h r c k hr hc hk
  show x.get r c k - _ = y.get r c k - _
  unfold Statistics.sum
  rw [h.2.2.2 r c k hr hc hk, elements_same x y h]

end Verif.LabelNetwork
