import Verif.Spec.CreateDataset
import Verif.Props.C17_FileSorter
import Verif.Props.C24_C28_BinaryDataset

/-!
# Helper lemmas for creating a dataset
-/

namespace Verif.CreateDataset
open Verif.Encoders (Out Meta)
open Verif.TextCodec (Str NL)
open Verif.Parser (ColGroup)
open Verif.Csv (strip)
open Verif.Execute (andThen collect Dataset)

/-! ### Lists -/

theorem collect_map {A B C : Type} (f : B → Out C) (g : A → B) (l : List A) : collect f (l.map g) = collect (fun a => f (g a)) l := by
  induction l with
  | nil => rfl
  | cons a l ih => simp only [List.map_cons, collect, ih]

theorem collect_all {A B : Type} (f : A → Out B) (g : A → B) (l : List A) (h : ∀ a ∈ l, f a = .ok (g a)) : collect f l = .ok (l.map g) := by
  induction l with
  | nil => rfl
  | cons a l ih =>
    rw [collect, h a List.mem_cons_self, ih (fun b hb => h b (List.mem_cons_of_mem _ hb))]
    rfl

theorem zipWith_maps {A B C D : Type} (f : B → C → D) (g : A → B) (h : A → C) (l : List A) : List.zipWith f (l.map g) (l.map h) = l.map fun a => f (g a) (h a) := by
  induction l with
  | nil => rfl
  | cons a l ih => simp [ih]

theorem zip_maps {A B C : Type} (g : A → B) (h : A → C) (l : List A) : (l.map g).zip (l.map h) = l.map fun a => (g a, h a) := by
  induction l with
  | nil => rfl
  | cons a l ih => simp [ih]

theorem forall₂_maps {A B C : Type} (R : B → C → Prop) (g : A → B) (h : A → C) (l : List A) (hr : ∀ a ∈ l, R (g a) (h a)) : List.Forall₂ R (l.map g) (l.map h) := by
  induction l with
  | nil => exact .nil
  | cons a l ih => exact .cons (hr a List.mem_cons_self) (ih fun b hb => hr b (List.mem_cons_of_mem _ hb))

theorem pick {A B : Type} (f : A → B) (R : List A) (l : List B) (h : ∀ b ∈ l, ∃ a ∈ R, f a = b) : ∃ k : List A, k.map f = l ∧ ∀ a ∈ k, a ∈ R := by
  induction l with
  | nil => exact ⟨[], rfl, by simp⟩
  | cons b l ih =>
    obtain ⟨k, h1, h2⟩ := ih fun b hb => h b (List.mem_cons_of_mem _ hb)
    obtain ⟨a, h3, h4⟩ := h b List.mem_cons_self
    exact ⟨a :: k, by simp [h1, h4], by simpa [h3] using h2⟩

theorem keepRecent_map {A B : Type} (c : Nat) (key : B → BitVec 64) (f : A → B) (l : List A) : ∀ kept,
    BinaryDataset.keepRecent c key kept (l.map f) = (BinaryDataset.keepRecent c (fun a => key (f a)) kept l).map f := by
  induction l with
  | nil => intro kept; rfl
  | cons a l ih =>
    intro kept
    simp only [List.map_cons, BinaryDataset.keepRecent]
    split
    · exact ih kept
    · rw [List.map_cons, ih]

/-- Nothing is dropped without an equal key being kept. -/
theorem keepRecent_covers {A : Type} (c : Nat) (key : A → BitVec 64) (l : List A) : ∀ kept, ∀ a ∈ l,
    key a ∈ kept ∨ ∃ b ∈ BinaryDataset.keepRecent c key kept l, key b = key a := by
  induction l with
  | nil => simp
  | cons x l ih =>
    intro kept a ha
    unfold BinaryDataset.keepRecent
    split
    · rename_i hx
      rcases List.mem_cons.mp ha with rfl | ha
      · exact Or.inl (List.mem_of_mem_take hx)
      · exact ih kept a ha
    · rcases List.mem_cons.mp ha with rfl | ha
      · exact Or.inr ⟨a, List.mem_cons_self, rfl⟩
      · rcases ih (key x :: kept) a ha with h | ⟨b, hb, e⟩
        · rcases List.mem_cons.mp h with h | h
          · exact Or.inr ⟨x, List.mem_cons_self, h.symm⟩
          · exact Or.inl h
        · exact Or.inr ⟨b, List.mem_cons_of_mem _ hb, e⟩

/-- As long as the cache is large enough, no two kept rows have the same key. -/
theorem keepRecent_distinct {A : Type} (c : Nat) (key : A → BitVec 64) (l : List A) : ∀ kept, kept.length + (BinaryDataset.keepRecent c key kept l).length ≤ c →
    (BinaryDataset.keepRecent c key kept l).Pairwise (fun a b => key a ≠ key b) ∧ ∀ a ∈ BinaryDataset.keepRecent c key kept l, key a ∉ kept := by
  induction l with
  | nil => intro kept _; simp [BinaryDataset.keepRecent]
  | cons x l ih =>
    intro kept
    unfold BinaryDataset.keepRecent
    split
    · exact ih kept
    · rename_i hx
      intro hlen
      simp only [List.length_cons] at hlen
      obtain ⟨h1, h2⟩ := ih (key x :: kept) (by simp only [List.length_cons]; omega)
      rw [List.take_of_length_le (by omega)] at hx
      refine ⟨List.pairwise_cons.mpr ⟨fun b hb e => h2 b hb (by rw [← e]; exact List.mem_cons_self), h1⟩, ?_⟩
      intro a ha
      rcases List.mem_cons.mp ha with rfl | ha
      · exact hx
      · exact fun h => h2 a ha (List.mem_cons_of_mem _ h)

theorem range_flat {A : Type} (n m : Nat) (f : Nat → A) : ((List.range n).flatMap fun i => (List.range m).map fun j => f (i * m + j)) = (List.range (n * m)).map f := by
  induction n with
  | zero => simp
  | succ n ih => rw [List.range_succ, List.flatMap_append, ih, Nat.succ_mul, List.range_add, List.map_append]; simp [Function.comp_def]

theorem range_getD {A : Type} (l : List A) (z : A) : ((List.range l.length).map fun i => l.getD i z) = l := by
  apply List.ext_getElem (by simp)
  intro i h1 h2
  simp [h2]

variable {F : Type} [Field F] [LinearOrder F]

omit [LinearOrder F] in
theorem elements_tensorOf (rows cols chans : Nat) (vals : List F) (h : vals.length = chans * (rows * cols)) :
    Statistics.elements (Encoders.tensorOf rows cols chans vals) = vals := by
  unfold Statistics.elements Encoders.tensorOf
  simp only
  have h1 : ∀ k, ((List.range rows).flatMap fun r => (List.range cols).map fun c => vals.getD (k * (rows * cols) + r * cols + c) 0) =
      (List.range (rows * cols)).map fun i => vals.getD (k * (rows * cols) + i) 0 := by
    intro k
    have := range_flat rows cols fun i => vals.getD (k * (rows * cols) + i) 0
    simpa only [Nat.add_assoc] using this
  simp only [h1]
  rw [range_flat chans (rows * cols) fun i => vals.getD i 0, ← h, range_getD]

/-! ### Encoding the words of one column -/

omit [Field F] [LinearOrder F] in
theorem readValues_all (conv : Str → Option F) (ws : List Str) (h : ∀ w ∈ ws, ∃ x, conv w = some x) :
    Encoders.readValues conv ws.length ws = .ok (ws.filterMap conv) ∧ (ws.filterMap conv).length = ws.length := by
  induction ws with
  | nil => exact ⟨rfl, rfl⟩
  | cons w ws ih =>
    obtain ⟨x, hx⟩ := h w List.mem_cons_self
    obtain ⟨h1, h2⟩ := ih fun w hw => h w (List.mem_cons_of_mem _ hw)
    simp only [List.length_cons, Encoders.readValues, hx, h1, List.filterMap_cons, h2, and_self]

omit [Field F] [LinearOrder F] in
theorem filterMap_eq_iff (conv : Str → Option F) (vs ws : List Str) (hv : ∀ w ∈ vs, ∃ x, conv w = some x) (hw : ∀ w ∈ ws, ∃ x, conv w = some x) :
    vs.filterMap conv = ws.filterMap conv ↔ List.Forall₂ (fun v w => conv v = conv w) vs ws := by
  induction vs generalizing ws with
  | nil =>
    cases ws with
    | nil => simp
    | cons w ws => obtain ⟨x, hx⟩ := hw w List.mem_cons_self; simp [hx]
  | cons v vs ih =>
    obtain ⟨y, hy⟩ := hv v List.mem_cons_self
    cases ws with
    | nil => simp [hy]
    | cons w ws =>
      obtain ⟨x, hx⟩ := hw w List.mem_cons_self
      simp only [List.filterMap_cons, hy, hx, List.cons.injEq, List.forall₂_cons, Option.some.injEq]
      rw [ih ws (fun w h => hv w (List.mem_cons_of_mem _ h)) fun w h => hw w (List.mem_cons_of_mem _ h)]

omit [LinearOrder F] in
theorem encodeValues_all (conv : Str → Option F) (rows cols chans : Nat) (ws : List Str) (hl : ws.length = rows * cols * chans) (hpos : 1 ≤ ws.length)
    (h : ∀ w ∈ ws, ∃ x, conv w = some x) : Encoders.encodeValues conv rows cols chans ws = .ok (Encoders.tensorOf rows cols chans (ws.filterMap conv)) := by
  unfold Encoders.encodeValues
  rw [show chans * (rows * cols) = ws.length by rw [hl, Nat.mul_comm], (readValues_all conv ws h).1]
  simp only
  rw [if_neg]
  rintro (rfl | rfl) <;> simp at hl <;> simp [hl] at hpos

/-- The tensor for the words of a column. -/
def tensorFor (env : Env F) (m : Meta F) (ws : List Str) : Tensor F :=
  match rawEncode env m ws with
  | .ok t => t
  | _ => ⟨0, 0, 0, fun _ _ _ => 0⟩

/-- The words fit the column. -/
def Good (env : Env F) (g : ColGroup) (labels : List Str) (ws : List Str) : Prop :=
  ws.length = g.count ∧ (IsLabel g → ∀ w ∈ ws, strip w ∈ labels) ∧ (IsNumber g ∨ IsImage g → ∀ w ∈ ws, ∃ x, number env w = some x)

omit [LinearOrder F] in
theorem number_eq (env : Env F) (w : Str) : Encoders.stringToFloat env.num (strip w) = number env w := rfl

omit [LinearOrder F] in
/-- How a supported column is encoded, by kind. -/
theorem encode_number (env : Env F) (g : ColGroup) (hk : IsNumber g) (hc : g.count = g.rows * g.cols * g.channels) (hp : 1 ≤ g.count) (labels : List Str) (ws : List Str)
    (h : Good env g labels ws) : (rawMeta (F := F) g labels).purpose = 'N' ∧
      rawEncode env (rawMeta g labels) ws = .ok (Encoders.tensorOf g.rows g.cols g.channels (ws.filterMap (number env))) := by
  have hp' : purposeOf g = 'N' := by unfold purposeOf; rw [hk]; decide
  have hm : rawMeta (F := F) g labels = ⟨'N', g.rows, g.cols, g.channels, [], unscaled⟩ := by
    unfold rawMeta; rw [hp', if_neg (by decide)]
  refine ⟨by rw [hm], ?_⟩
  rw [hm]
  unfold rawEncode
  simp only [show ('N' = 'I') = False by decide, if_false, if_true]
  unfold Encoders.scalarEncode
  simp only [if_true, number_eq]
  exact encodeValues_all _ _ _ _ ws (by rw [h.1, hc]) (by rw [h.1]; exact hp) fun w hw => h.2.2 (Or.inl hk) w hw

omit [LinearOrder F] in
theorem encode_image (env : Env F) (g : ColGroup) (hk : IsImage g) (hc : g.count = g.rows * g.cols * g.channels) (hp : 1 ≤ g.count) (labels : List Str) (ws : List Str)
    (h : Good env g labels ws) : (rawMeta (F := F) g labels).purpose = 'I' ∧ rawEncode env (rawMeta g labels) ws =
      .ok (Encoders.tensorOf g.rows g.cols g.channels (ws.filterMap fun w => (number env w).map fun x => env.pixel (x / 255))) := by
  have hp' : purposeOf g = 'I' := by unfold purposeOf; rw [hk]; decide
  have hm : rawMeta (F := F) g labels = ⟨'I', g.rows, g.cols, g.channels, [], unscaled⟩ := by
    unfold rawMeta; rw [hp', if_neg (by decide)]
  refine ⟨by rw [hm], ?_⟩
  rw [hm]
  unfold rawEncode
  simp only [if_true]
  unfold Encoders.pixelEncode
  simp only [if_true, number_eq]
  refine encodeValues_all _ _ _ _ ws (by rw [h.1, hc]) (by rw [h.1]; exact hp) fun w hw => ?_
  obtain ⟨x, hx⟩ := h.2.2 (Or.inr hk) w hw
  exact ⟨_, by rw [hx]; rfl⟩

omit [LinearOrder F] in
theorem encode_label (env : Env F) (g : ColGroup) (hk : IsLabel g) (hr : g.rows = 1) (hc : g.count = 1) (labels : List Str) (hn : labels.Nodup) (ws : List Str)
    (h : Good env g labels ws) : (rawMeta (F := F) g labels).purpose = 'L' ∧ ∃ w i, ws = [w] ∧ labels[i]? = some (strip w) ∧
      rawEncode env (rawMeta g labels) ws = .ok ⟨1, labels.length, 1, fun r c _ => if [i][r]? = some c then 1 else 0⟩ := by
  have hp' : purposeOf g = 'L' := by unfold purposeOf; rw [hk]; decide
  have hm : rawMeta (F := F) g labels = ⟨'L', 1, labels.length, 1, labels, unscaled⟩ := by
    unfold rawMeta; rw [hp', if_pos rfl, hr, Encoders.categoryCount, hn.dedup]
  refine ⟨by rw [hm], ?_⟩
  obtain ⟨w, rfl⟩ := List.length_eq_one_iff.mp (h.1.trans hc)
  obtain ⟨i, hi⟩ := List.mem_iff_getElem?.mp (h.2.1 hk w List.mem_cons_self)
  refine ⟨w, i, rfl, hi, ?_⟩
  rw [hm]
  unfold rawEncode
  simp only [show ('L' = 'I') = False by decide, show ('L' = 'N') = False by decide, if_false, if_true]
  exact Encoders.categoryEncode_one labels hn w i hi

theorem kinds_apart (g : ColGroup) : ¬ (IsLabel g ∧ IsNumber g) ∧ ¬ (IsLabel g ∧ IsImage g) ∧ ¬ (IsNumber g ∧ IsImage g) := by
  unfold IsLabel IsNumber IsImage
  refine ⟨?_, ?_, ?_⟩ <;> (rintro ⟨h1, h2⟩; rw [h1] at h2; exact absurd h2 (by decide))

omit [LinearOrder F] in
theorem rawEncode_good (env : Env F) (g : ColGroup) (hs : Supported g) (labels : List Str) (hn : labels.Nodup) (ws : List Str) (h : Good env g labels ws) :
    rawEncode env (rawMeta g labels) ws = .ok (tensorFor env (rawMeta g labels) ws) := by
  have key : ∀ t, rawEncode env (rawMeta g labels) ws = .ok t → rawEncode env (rawMeta g labels) ws = .ok (tensorFor env (rawMeta g labels) ws) := by
    intro t ht; unfold tensorFor; rw [ht]
  obtain ⟨⟨hk | hk, hc⟩ | ⟨hk, hr, hc⟩, _, hsane⟩ := hs
  · exact key _ (encode_number env g hk hc hsane.1 labels ws h).2
  · exact key _ (encode_image env g hk hc hsane.1 labels ws h).2
  · obtain ⟨_, w, i, _, _, ht⟩ := encode_label env g hk hr hc labels hn ws h
    exact key _ ht

omit [LinearOrder F] in
/-- Tensors are the same exactly if the words mean the same. -/
theorem tensorFor_eq_iff (env : Env F) (g : ColGroup) (hs : Supported g) (labels : List Str) (hn : labels.Nodup) (vs ws : List Str) (hv : Good env g labels vs)
    (hw : Good env g labels ws) :
    tensorFor env (rawMeta g labels) vs = tensorFor env (rawMeta g labels) ws ↔ List.Forall₂ (SameWord env g) vs ws := by
  obtain ⟨k1, k2, k3⟩ := kinds_apart g
  obtain ⟨⟨hk | hk, hc⟩ | ⟨hk, hr, hc⟩, _, hsane⟩ := hs
  · have e1 := (encode_number env g hk hc hsane.1 labels vs hv).2
    have e2 := (encode_number env g hk hc hsane.1 labels ws hw).2
    have hlen : ∀ us, Good env g labels us → (us.filterMap (number env)).length = g.channels * (g.rows * g.cols) := fun us hu => by
      rw [(readValues_all (number env) us (hu.2.2 (Or.inl hk))).2, hu.1, hc, Nat.mul_comm]
    unfold tensorFor
    rw [e1, e2]
    simp only
    rw [show (SameWord env g) = fun v w => number env v = number env w from ?_, ← filterMap_eq_iff _ _ _ (hv.2.2 (Or.inl hk)) (hw.2.2 (Or.inl hk))]
    · refine ⟨fun h => ?_, fun h => by rw [h]⟩
      rw [← elements_tensorOf _ _ _ _ (hlen vs hv), ← elements_tensorOf _ _ _ _ (hlen ws hw), h]
    · funext v w
      exact propext ⟨fun h => h.2.1 hk, fun h => ⟨fun h' => absurd ⟨h', hk⟩ k1, fun _ => h, fun h' => absurd ⟨hk, h'⟩ k3⟩⟩
  · have e1 := (encode_image env g hk hc hsane.1 labels vs hv).2
    have e2 := (encode_image env g hk hc hsane.1 labels ws hw).2
    have hex : ∀ us, Good env g labels us → ∀ w ∈ us, ∃ x, (number env w).map (fun x => env.pixel (x / 255)) = some x := fun us hu w hw => by
      obtain ⟨x, hx⟩ := hu.2.2 (Or.inr hk) w hw
      exact ⟨_, by rw [hx]; rfl⟩
    have hlen : ∀ us, Good env g labels us → (us.filterMap fun w => (number env w).map fun x => env.pixel (x / 255)).length = g.channels * (g.rows * g.cols) :=
      fun us hu => by rw [(readValues_all _ us (hex us hu)).2, hu.1, hc, Nat.mul_comm]
    unfold tensorFor
    rw [e1, e2]
    simp only
    rw [show (SameWord env g) = fun v w => (number env v).map (fun x => env.pixel (x / 255)) = (number env w).map (fun x => env.pixel (x / 255)) from ?_,
      ← filterMap_eq_iff _ _ _ (hex vs hv) (hex ws hw)]
    · refine ⟨fun h => ?_, fun h => by rw [h]⟩
      rw [← elements_tensorOf _ _ _ _ (hlen vs hv), ← elements_tensorOf _ _ _ _ (hlen ws hw), h]
    · funext v w
      exact propext ⟨fun h => h.2.2 hk, fun h => ⟨fun h' => absurd ⟨h', hk⟩ k2, fun h' => absurd ⟨h', hk⟩ k3, fun _ => h⟩⟩
  · obtain ⟨_, v, i, rfl, hi, e1⟩ := encode_label env g hk hr hc labels hn vs hv
    obtain ⟨_, w, j, rfl, hj, e2⟩ := encode_label env g hk hr hc labels hn ws hw
    unfold tensorFor
    rw [e1, e2]
    simp only [List.forall₂_cons, List.Forall₂.nil, and_true]
    have hi' : i < labels.length := (List.getElem?_eq_some_iff.mp hi).1
    constructor
    · intro h
      have := congrArg (fun t : Tensor F => t.get 0 i 0) h
      simp only [List.getElem?_cons_zero, if_true, Option.some.injEq] at this
      have e : j = i := by by_contra hne; rw [if_neg hne] at this; exact one_ne_zero this
      subst e
      have hs := Option.some.inj (hi.symm.trans hj)
      exact ⟨fun _ => hs, fun h' => absurd ⟨hk, h'⟩ k1, fun h' => absurd ⟨hk, h'⟩ k2⟩
    · intro h
      have hs := h.1 hk
      rw [← hs] at hj
      rw [(List.getElem?_inj hi' hn).mp (hi.trans hj.symm)]

/-- What is read from the final dataset is what `datasetEncode` makes of the words. -/
theorem final_good (env : Env F) (hpix : ∀ v, env.pixel (env.pixel v) = env.pixel v) (hpix0 : env.pixel 0 = 0) (g : ColGroup) (hs : Supported g) (labels : List Str)
    (hn : labels.Nodup) (ws : List Str) (h : Good env g labels ws) (column : Statistics.Column F) (hcol : ¬ IsNumber g → column = unscaled) :
    let m : Meta F := { (rawMeta g labels : Meta F) with column := column }
    Encoders.datasetEncode env.num env.pixel m ws =
      .ok (if m.purpose = 'I' then Encoders.plain (reload env m (reload env (rawMeta g labels) (tensorFor env (rawMeta g labels) ws)))
        else Encoders.scaled m.column (reload env (rawMeta g labels) (tensorFor env (rawMeta g labels) ws))) := by
  intro m
  obtain ⟨k1, k2, k3⟩ := kinds_apart g
  have e := rawEncode_good env g hs labels hn ws h
  obtain ⟨⟨hk | hk, hc⟩ | ⟨hk, hr, hc⟩, _, hsane⟩ := hs
  · obtain ⟨hp, _⟩ := encode_number env g hk hc hsane.1 labels ws h
    unfold rawEncode at e
    rw [hp] at e
    simp only [show ('N' = 'I') = False by decide, if_false, if_true] at e
    unfold Encoders.datasetEncode reload
    simp only [m, hp, show ('N' = 'I') = False by decide, if_false, if_true]
    rw [e]; rfl
  · obtain ⟨hp, ht⟩ := encode_image env g hk hc hsane.1 labels ws h
    rw [e] at ht
    have ht := Encoders.Out.ok.inj ht
    unfold rawEncode at e
    rw [hp] at e
    simp only [if_true] at e
    unfold Encoders.datasetEncode reload
    simp only [m, hp, if_true]
    rw [e]
    show Out.ok (Encoders.plain _) = _
    congr 2
    rw [ht]
    unfold Encoders.tensorOf
    congr 1
    funext r c k
    rw [hpix]
    simp only
    generalize k * (g.rows * g.cols) + r * g.cols + c = i
    have : ∀ (us : List Str) (i : Nat), env.pixel ((us.filterMap fun w => (number env w).map fun x => env.pixel (x / 255)).getD i 0) =
        (us.filterMap fun w => (number env w).map fun x => env.pixel (x / 255)).getD i 0 := by
      intro us i
      rw [List.getD_eq_getElem?_getD]
      cases hx : (us.filterMap fun w => (number env w).map fun x => env.pixel (x / 255))[i]? with
      | none => exact hpix0
      | some y =>
        obtain ⟨w, _, hw⟩ := List.mem_filterMap.mp (List.mem_of_getElem? hx)
        obtain ⟨x, _, rfl⟩ := Option.map_eq_some_iff.mp hw
        exact hpix _
    exact (this ws i).symm
  · obtain ⟨hp, _⟩ := encode_label env g hk hr hc labels hn ws h
    unfold rawEncode at e
    rw [hp] at e
    simp only [show ('L' = 'I') = False by decide, show ('L' = 'N') = False by decide, if_false, if_true] at e
    unfold Encoders.datasetEncode reload
    simp only [m, hp, show ('L' = 'I') = False by decide, show ('L' = 'N') = False by decide, if_false, if_true]
    rw [e, hcol fun h' => k1 ⟨hk, h'⟩]
    rfl

/-! ### Files -/

/-- The words of a record in the order of the new file. -/
def newOf (gs : List ColGroup) (r : List Str) : List Str := gs.flatMap fun g => wordsIn g r

theorem writeField_ne (num : Str → Bool) (d : UInt8) (f : Str) (hs : Csv.Safe num d f) (hf : f ≠ []) : Csv.writeField num d f ≠ [] := by
  unfold Csv.writeField
  rw [hs.1]
  simp only [hf, if_false]
  split
  · simp [Csv.wrap]
  · split
    · exact hf
    · simp [Csv.wrap]

theorem writeRecord_ne (num : Str → Bool) (d : UInt8) (r : List Str) (hs : ∀ f ∈ r, Csv.Safe num d f) (h : 2 ≤ r.length ∨ ∃ f ∈ r, f ≠ []) :
    Csv.writeRecord num d r ≠ [] := by
  match r with
  | [] => simp at h
  | [f] =>
    rw [Csv.writeRecord]
    rcases h with h | ⟨f', hf, hne⟩
    · simp at h
    · rw [List.mem_singleton] at hf; subst hf
      exact writeField_ne num d _ (hs _ List.mem_cons_self) hne
  | f :: g :: fs => rw [Csv.writeRecord] <;> simp

theorem readCsv_written (num : Str → Bool) (rs : List (List Str)) (hne : ∀ r ∈ rs, r ≠ []) (hs : ∀ r ∈ rs, ∀ f ∈ r, Csv.Safe num 44 f) (hrs : rs ≠ []) :
    readCsv false (Lines.putLines NL (rs.map (Csv.writeRecord num 44))) = some rs := by
  have hl := Lines.getLines_putLines NL (rs.map (Csv.writeRecord num 44)) (by
    intro l hl
    obtain ⟨r, hr, rfl⟩ := List.mem_map.mp hl
    exact Csv.NL_not_mem_writeRecord num 44 (by decide) r (hs r hr))
  have := Csv.C15_file_partial num 44 (by decide) (by decide) rs hne hs hrs rs.length (Nat.le_refl _)
  unfold readCsv
  simp only
  rw [hl] at this ⊢
  rw [List.length_map]
  exact this

/-- Sorting the new file: afterwards it holds the same records, and can be read. -/
theorem sorted_records (num : Str → Bool) (new : List (List Str)) (hne : ∀ r ∈ new, r ≠ []) (hs : ∀ r ∈ new, ∀ f ∈ r, Csv.Safe num 44 f)
    (hb : ∀ r ∈ new, 2 ≤ r.length ∨ ∃ f ∈ r, f ≠ []) (hnew : new ≠ []) (lines : List Str)
    (h : FileSorter.Sorts List.isEmpty [] false 10000 true (Lines.getLines NL (Lines.putLines NL (new.map (Csv.writeRecord num 44)))) lines) :
    ∃ recs, readCsv false (Lines.putLines NL lines) = some recs ∧ recs.Nodup ∧ (∀ r, r ∈ recs ↔ r ∈ new) := by
  have hl := Lines.getLines_putLines NL (new.map (Csv.writeRecord num 44)) (by
    intro l hl
    obtain ⟨r, hr, rfl⟩ := List.mem_map.mp hl
    exact Csv.NL_not_mem_writeRecord num 44 (by decide) r (hs r hr))
  rw [hl] at h
  obtain ⟨body, hout, hmem, hlt⟩ := FileSorter.C17_distinct _ _ _ _ _ _ h
  have hout : lines = body := hout
  rw [hout]
  have hbody : FileSorter.bodyLines List.isEmpty false (new.map (Csv.writeRecord num 44)) = new.map (Csv.writeRecord num 44) := by
    unfold FileSorter.bodyLines
    simp only [Bool.false_eq_true, if_false]
    rw [List.filter_eq_self]
    intro l hl
    obtain ⟨r, hr, rfl⟩ := List.mem_map.mp hl
    have := writeRecord_ne num 44 r (hs r hr) (hb r hr)
    cases hx : Csv.writeRecord num 44 r with
    | nil => exact absurd hx this
    | cons a b => rfl
  rw [hbody] at hmem
  obtain ⟨recs, hrecs, hsub⟩ := pick (Csv.writeRecord num 44) new body (fun l hl => by
    obtain ⟨r, hr, e⟩ := List.mem_map.mp ((hmem l).mp hl)
    exact ⟨r, hr, e⟩)
  subst hrecs
  have hfwd : ∀ r ∈ new, r ∈ recs := by
    intro r hr
    obtain ⟨s, hs', e⟩ := List.mem_map.mp ((hmem _).mpr (List.mem_map_of_mem (f := Csv.writeRecord num 44) hr))
    have h1 := Csv.C15_record_partial num 44 (by decide) r (hne r hr) (hs r hr) []
    have h2 := Csv.C15_record_partial num 44 (by decide) s (hne s (hsub s hs')) (hs s (hsub s hs')) []
    rw [e, h1] at h2
    simp only [Option.some.injEq, Prod.mk.injEq, and_true] at h2
    rw [h2]; exact hs'
  refine ⟨recs, readCsv_written num recs (fun r hr => hne r (hsub r hr)) (fun r hr => hs r (hsub r hr)) ?_,
    List.Nodup.of_map _ (hlt.imp fun h => ne_of_lt h), fun r => ⟨hsub r, hfwd r⟩⟩
  rintro rfl
  obtain ⟨r, hr⟩ := List.exists_mem_of_ne_nil _ hnew
  simpa using hfwd r hr

theorem mapM_new (given expected : List ColGroup) (records : List (List Str)) (f : List Str → List Str)
    (h : ∀ r ∈ records, Columns.newRecord given expected r = some (f r)) : records.mapM (Columns.newRecord given expected) = some (records.map f) := by
  induction records with
  | nil => rfl
  | cons r rs ih =>
    rw [List.mapM_cons, h r List.mem_cons_self, ih fun r hr => h r (List.mem_cons_of_mem _ hr)]
    rfl

/-! ### Columns -/

/-- A group, its copy with the new position, and the labels. -/
abbrev Col := ColGroup × ColGroup × List Str

def metaOf (c : Col) : Meta F := rawMeta c.1 c.2.2
def tensorAt (env : Env F) (c : Col) (r : List Str) : Tensor F := tensorFor env (metaOf c) (wordsIn c.1 r)

theorem placed (gs hs : List ColGroup) (records : List (List Str)) (hpos : ∀ g ∈ gs ++ hs, 1 ≤ g.count)
    (h : ∀ r ∈ records, ∀ g ∈ gs ++ hs, g.start + g.count ≤ r.length) :
    List.Forall₂ (fun g g' => g' = { g with start := g'.start } ∧ ∀ r ∈ records, wordsIn g' (newOf (gs ++ hs) r) = wordsIn g r ∧
        g'.start + g'.count ≤ (newOf (gs ++ hs) r).length) (gs ++ hs) (Columns.placeFrom 0 (gs ++ hs)) := by
  generalize gs ++ hs = l at *
  have key : ∀ (i : Nat) (l : List ColGroup), List.Forall₂ (fun g g' => g' = { g with start := g'.start }) l (Columns.placeFrom i l) := by
    intro i l
    induction l generalizing i with
    | nil => exact .nil
    | cons g l ih => exact .cons rfl (ih _)
  have hk := key 0 l
  rw [List.forall₂_iff_get] at hk ⊢
  refine ⟨hk.1, fun i h1 h2 => ⟨hk.2 i h1 h2, fun r hr => ?_⟩⟩
  have := Columns.placeFrom_columns r l (h r hr) [] []
  simp only [List.length_nil, List.nil_append, List.append_nil] at this
  have := congrArg (fun l => (l[i]?).map Prod.fst) this
  simp only [List.getElem?_map, List.getElem?_eq_getElem h1, List.getElem?_eq_getElem h2, Option.map_some, Option.some.injEq] at this
  refine ⟨this, ?_⟩
  have hw := h r hr _ (List.getElem_mem h1)
  have hlen := congrArg List.length this
  have hcount : (Columns.placeFrom 0 l)[i].count = l[i].count := by have := hk.2 i h1 h2; simp only [List.get_eq_getElem] at this; rw [this]
  have hp := hpos _ (List.getElem_mem h1)
  show _ ≤ (l.flatMap fun g => Columns.columnsOf r g.start g.count).length
  change (Columns.columnsOf _ _ _).length = (Columns.columnsOf _ _ _).length at hlen
  generalize (l.flatMap fun g => Columns.columnsOf r g.start g.count) = new at *
  simp only [Columns.columnsOf, List.length_take, List.length_drop] at hlen
  show (Columns.placeFrom 0 l)[i].start + (Columns.placeFrom 0 l)[i].count ≤ _
  rw [hcount] at hlen ⊢
  omega

/-- A column with everything that its records need. -/
structure ColOk (env : Env F) (all : List ColGroup) (records : List (List Str)) (c : Col) : Prop where
  supported : Supported c.1
  moved : c.2.1 = { c.1 with start := c.2.1.start }
  words : ∀ r ∈ records, wordsIn c.2.1 (newOf all r) = wordsIn c.1 r ∧ c.2.1.start + c.2.1.count ≤ (newOf all r).length
  nodup : c.2.2.Nodup
  labels : IsLabel c.1 → ∀ l, l ∈ c.2.2 ↔ ∃ r ∈ records, ∃ w ∈ wordsIn c.1 r, strip w = l
  none : ¬ IsLabel c.1 → c.2.2 = []
  good : ∀ r ∈ records, Good env c.1 c.2.2 (wordsIn c.1 r)

theorem columnsOf_one (r : List Str) (i : Nat) (w : Str) : w ∈ Columns.columnsOf r i 1 ↔ r[i]? = some w := by
  unfold Columns.columnsOf
  have : r[i]? = (r.drop i)[0]? := by rw [List.getElem?_drop]; rfl
  rw [this]
  cases r.drop i <;> simp [eq_comm]

theorem columns_ok (env : Env F) (groups all : List ColGroup) (records recs : List (List Str)) (hr : Ready env groups records)
    (hrecs : ∀ x, x ∈ recs ↔ ∃ r ∈ records, newOf all r = x) : ∀ (gs ps : List ColGroup) (ls : List (List Str)), (∀ g ∈ gs, g ∈ groups) →
    List.Forall₂ (fun g g' => g' = { g with start := g'.start } ∧ ∀ r ∈ records, wordsIn g' (newOf all r) = wordsIn g r ∧
        g'.start + g'.count ≤ (newOf all r).length) gs ps →
    List.Forall₂ (LabelsOf recs) ps ls → ∃ cs : List Col, cs.map (·.1) = gs ∧ cs.map (·.2.1) = ps ∧ cs.map (·.2.2) = ls ∧ ∀ c ∈ cs, ColOk env all records c := by
  intro gs
  induction gs with
  | nil =>
    intro ps ls _ h1 h2
    cases h1
    cases h2
    exact ⟨[], rfl, rfl, rfl, by simp⟩
  | cons g gs ih =>
    intro ps ls hg h1 h2
    obtain ⟨g', ps', ⟨hm, hw⟩, h1', rfl⟩ := List.forall₂_cons_left_iff.mp h1
    obtain ⟨l, ls', hl, h2', rfl⟩ := List.forall₂_cons_left_iff.mp h2
    obtain ⟨cs, e1, e2, e3, hc⟩ := ih ps' ls' (fun g h => hg g (List.mem_cons_of_mem _ h)) h1' h2'
    refine ⟨(g, g', l) :: cs, by simp [e1], by simp [e2], by simp [e3], ?_⟩
    intro c hc'
    rcases List.mem_cons.mp hc' with rfl | hc'
    · have hgg := hg g List.mem_cons_self
      have hsup := hr.supported g hgg
      obtain ⟨k1, k2, k3⟩ := kinds_apart g
      have hkind : IsLabel g' ↔ IsLabel g := by unfold IsLabel; rw [hm]
      have hlab : IsLabel g → l.Nodup ∧ ∀ x, x ∈ l ↔ ∃ r ∈ records, ∃ w ∈ wordsIn g r, strip w = x := by
        intro hk
        unfold LabelsOf at hl
        rw [if_pos (show g'.dataType = _ from hkind.mpr hk)] at hl
        refine ⟨hl.1, fun x => ?_⟩
        have hcount : g'.count = 1 := by
          rw [hm]
          obtain ⟨⟨h' | h', _⟩ | ⟨_, _, h'⟩, _⟩ := hsup
          · exact absurd ⟨hk, h'⟩ k1
          · exact absurd ⟨hk, h'⟩ k2
          · exact h'
        rw [hl.2]
        constructor
        · rintro ⟨rec, hrec, v, hv, e⟩
          obtain ⟨r, hr', rfl⟩ := (hrecs rec).mp hrec
          refine ⟨r, hr', v, ?_, e⟩
          rw [← (hw r hr').1]
          unfold wordsIn
          rw [hcount, columnsOf_one]
          exact hv
        · rintro ⟨r, hr', w, hw', e⟩
          rw [← (hw r hr').1] at hw'
          unfold wordsIn at hw'
          rw [hcount, columnsOf_one] at hw'
          exact ⟨_, (hrecs _).mpr ⟨r, hr', rfl⟩, w, hw', e⟩
      have hnone : ¬ IsLabel g → l = [] := by
        intro hk
        unfold LabelsOf at hl
        rwa [if_neg (show ¬ g'.dataType = _ from fun h => hk (hkind.mp h))] at hl
      refine ⟨hsup, hm, hw, ?_, fun hk => (hlab hk).2, hnone, fun r hr' => ⟨?_, ?_, ?_⟩⟩
      · by_cases hk : IsLabel g
        · exact (hlab hk).1
        · show l.Nodup
          rw [hnone hk]; exact List.nodup_nil
      · have := hr.wide r hr' g hgg
        simp only [wordsIn, Columns.columnsOf, List.length_take, List.length_drop]
        omega
      · intro hk w hw'
        exact ((hlab hk).2 _).mpr ⟨r, hr', w, hw', rfl⟩
      · intro hk w hw'
        obtain ⟨x, hx, _⟩ := hr.numbers r hr' g hgg hk w hw'
        exact ⟨x, hx⟩
    · exact hc c hc'

omit [LinearOrder F] in
theorem rawMeta_moved (g g' : ColGroup) (h : g' = { g with start := g'.start }) (labels : List Str) : rawMeta (F := F) g' labels = rawMeta g labels := by
  rw [h]; rfl

omit [LinearOrder F] in
theorem encodeColumn_ok (env : Env F) (all : List ColGroup) (records : List (List Str)) (c : Col) (h : ColOk env all records c) (r : List Str) (hr : r ∈ records) :
    encodeColumn env (c.2.1, metaOf c) (newOf all r) = .ok (tensorAt env c r) := by
  have hcount : c.2.1.count = c.1.count := by rw [h.moved]
  have hp : 1 ≤ c.1.count := h.supported.2.2.1
  have hb := (h.words r hr).2
  unfold encodeColumn
  simp only
  rw [if_neg (by omega), if_neg (by omega)]
  have := (h.words r hr).1
  unfold wordsIn Columns.columnsOf at this
  rw [this]
  exact rawEncode_good env c.1 h.supported c.2.2 h.nodup _ (h.good r hr)

/-- The rows of the raw dataset. -/
theorem rows_ok (env : Env F) (all : List ColGroup) (records : List (List Str)) (cg ce : List Col) (hg : ∀ c ∈ cg, ColOk env all records c)
    (he : ∀ c ∈ ce, ColOk env all records c) (k : List (List Str)) (hk : ∀ r ∈ k, r ∈ records) :
    collect (encodeRecord env ((cg.map (·.2.1)).zip (cg.map metaOf)) ((ce.map (·.2.1)).zip (ce.map metaOf))) (k.map (newOf all)) =
      .ok (k.map fun r => (cg.map (tensorAt env · r), ce.map (tensorAt env · r))) := by
  rw [collect_map]
  apply collect_all
  intro r hr
  have key : ∀ cs : List Col, (∀ c ∈ cs, ColOk env all records c) →
      collect (fun gm => encodeColumn env gm (newOf all r)) ((cs.map (·.2.1)).zip (cs.map metaOf)) = .ok (cs.map (tensorAt env · r)) := by
    intro cs hc
    rw [zip_maps, collect_map]
    exact collect_all _ _ _ fun c hc' => encodeColumn_ok env all records c (hc c hc') r (hk r hr)
  unfold encodeRecord
  rw [key cg hg, key ce he]
  rfl

/-- The final description of a column. -/
def finalOf (env : Env F) (kept : List (List Str)) (c : Col) : Meta F :=
  { (metaOf c : Meta F) with column := scaleOf env (metaOf c) (kept.map fun r => reload env (metaOf c) (tensorAt env c r)) }

/-- What is read for a column of the final dataset. -/
def finalAt (env : Env F) (kept : List (List Str)) (c : Col) (r : List Str) : Tensor (Option F) :=
  if (metaOf c : Meta F).purpose = 'I' then Encoders.plain (reload env (finalOf env kept c) (reload env (metaOf c) (tensorAt env c r)))
  else Encoders.scaled (finalOf env kept c).column (reload env (metaOf c) (tensorAt env c r))

theorem finalMetas_eq (env : Env F) (cs : List Col) (kept : List (List Str)) (f : Col → List Str → Tensor F) :
    finalMetas env (cs.map metaOf) (kept.map fun r => cs.map (f · r)) =
      cs.map fun c => { (metaOf c : Meta F) with column := scaleOf env (metaOf c) (kept.map (f c)) } := by
  unfold finalMetas
  rw [List.zipIdx_map, List.map_map]
  have : ∀ p ∈ cs.zipIdx, columnAt (kept.map fun r => cs.map (f · r)) p.2 = kept.map (f p.1) := by
    rintro ⟨c, i⟩ hp
    rw [List.mem_zipIdx_iff_getElem?] at hp
    unfold columnAt
    rw [List.filterMap_map]
    simp only [Function.comp_def, List.getElem?_map, hp, Option.map_some]
    rw [List.filterMap_eq_map']
  have e : ∀ g : Col → Meta F, cs.zipIdx.map (fun p => g p.1) = cs.map g := by
    intro g
    rw [show (fun p : Col × Nat => g p.1) = g ∘ Prod.fst from rfl, ← List.map_map, List.zipIdx_map_fst]
  rw [← e]
  apply List.map_congr_left
  intro p hp
  simp only [Function.comp_def, Prod.map, id]
  rw [this p hp]

theorem finish_eq (env : Env F) (cg ce : List Col) (kept : List (List Str)) :
    finish env (cg.map metaOf) (ce.map metaOf) ((kept.map fun r => (cg.map (tensorAt env · r), ce.map (tensorAt env · r))).map
        fun r => (List.zipWith (reload env) (cg.map metaOf) r.1, List.zipWith (reload env) (ce.map metaOf) r.2)) =
      ⟨cg.map (finalOf env kept), ce.map (finalOf env kept), kept.map fun r => (cg.map (finalAt env kept · r), ce.map (finalAt env kept · r))⟩ := by
  have hr : ∀ cs : List Col, ∀ r, List.zipWith (reload env) (cs.map metaOf) (cs.map (tensorAt env · r)) = cs.map fun c => reload env (metaOf c) (tensorAt env c r) :=
    fun cs r => zipWith_maps _ _ _ _
  have hf : ∀ cs : List Col, ∀ r, finalRow env (cs.map (finalOf env kept)) (cs.map fun c => reload env (metaOf c) (tensorAt env c r)) = cs.map (finalAt env kept · r) := by
    intro cs r
    unfold finalRow
    rw [zipWith_maps]
    rfl
  unfold finish
  simp only [List.map_map, Function.comp_def, hr]
  have e1 := finalMetas_eq env cg kept fun c r => reload env (metaOf c) (tensorAt env c r)
  have e2 := finalMetas_eq env ce kept fun c r => reload env (metaOf c) (tensorAt env c r)
  rw [e1, e2]
  simp only [Dataset.mk.injEq]
  refine ⟨rfl, rfl, ?_⟩
  apply List.map_congr_left
  intro r _
  exact Prod.ext (hf cg r) (hf ce r)

end Verif.CreateDataset
