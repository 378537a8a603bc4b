import Verif.Model.Accuracy
import Verif.Props.C29_C32_Views
import Verif.Props.C51_C52_Encoders

/-!
C113: the categorical accuracy is the fraction of the records for which every decoded prediction is what is expected.
C114: the binary accuracy is the fraction of the records for which every element of the prediction rounds to what is expected.
-/

namespace Verif.Accuracy
open Verif.Encoders (Out)
open Verif.TextCodec (Str)
open Verif.Csv (strip)

variable {T S F : Type}

/-! ### Specification -/

/-- The records that count: at most `limit` of them, or all if it is negative. -/
def considered {R : Type} (limit : Int) (records : List R) : List R := if limit < 0 then records else records.take limit.toNat

open Classical in
/-- The fraction of records with a property; `none` if there are no records. -/
noncomputable def fraction {R : Type} (good : R → Prop) (records : List R) : Option ℚ :=
  if records = [] then none else some ((records.countP fun r => decide (good r) : ℚ) / records.length)

/-! ### The loop -/

theorem inc_min (x y : Nat) : inc (min x (2 ^ 24)) = min (x + 1) (2 ^ 24) := by
  unfold inc
  generalize 2 ^ 24 = N
  split <;> omega

/-- Both counters are exact up to 2^24. -/
theorem loop_counts {R : Type} (judge : R → Out Bool) (good : R → Bool) (limit : Int) (hl : limit ≤ 2 ^ 24) (records : List R) (a t : Nat)
    (h : ∀ r ∈ considered (if limit < 0 then limit else limit - t) records, judge r = .ok (good r)) (ht : limit < 0 ∨ t ≤ limit) :
    loop judge limit records (min a (2 ^ 24)) (min t (2 ^ 24)) =
      .ok (min (a + (considered (if limit < 0 then limit else limit - t) records).countP good) (2 ^ 24),
        min (t + (considered (if limit < 0 then limit else limit - t) records).length) (2 ^ 24)) := by
  induction records generalizing a t with
  | nil => simp [loop, considered]
  | cons r rs ih =>
    unfold loop
    by_cases hneg : limit < 0
    · rw [if_pos (Or.inl hneg)]
      simp only [hneg, if_true, considered] at h ⊢
      rw [h r List.mem_cons_self]
      have hc : (if good r = true then inc (min a (2 ^ 24)) else min a (2 ^ 24)) = min (a + if good r = true then 1 else 0) (2 ^ 24) := by
        split
        · exact inc_min a 0
        · rfl
      simp only
      rw [hc, inc_min t 0]
      have := ih (a + if good r = true then 1 else 0) (t + 1) (by simpa [hneg, considered] using fun x hx => h x (List.mem_cons_of_mem _ hx)) (Or.inl hneg)
      simp only [hneg, if_true, considered] at this
      rw [this, List.countP_cons, List.length_cons]
      congr 2
      · congr 1; omega
      · congr 1; omega
    · have ht' : (t : Int) ≤ limit := by
        rcases ht with h0 | h0
        · exact absurd h0 hneg
        · exact h0
      have hmin : min t (2 ^ 24) = t := by omega
      by_cases hlt : (t : Int) < limit
      · rw [if_pos (Or.inr (by rw [hmin]; exact hlt))]
        simp only [hneg, if_false, considered] at h ⊢
        have hnn : ¬ limit - (t : Int) < 0 := by omega
        rw [if_neg hnn] at h ⊢
        obtain ⟨k, hk⟩ : ∃ k, (limit - (t : Int)).toNat = k + 1 := ⟨(limit - (t : Int)).toNat - 1, by omega⟩
        have hk' : (limit - ((t + 1 : Nat) : Int)).toNat = k := by omega
        rw [hk, List.take_succ_cons] at h ⊢
        rw [h r List.mem_cons_self]
        have hc : (if good r = true then inc (min a (2 ^ 24)) else min a (2 ^ 24)) = min (a + if good r = true then 1 else 0) (2 ^ 24) := by
          split
          · exact inc_min a 0
          · rfl
        simp only
        rw [hc, inc_min t 0]
        have := ih (a + if good r = true then 1 else 0) (t + 1) (by
          rw [if_neg hneg]
          unfold considered
          rw [if_neg (by omega), hk']
          exact fun x hx => h x (List.mem_cons_of_mem _ hx)) (Or.inr (by omega))
        simp only [hneg, if_false, considered] at this
        rw [if_neg (show ¬ limit - ((t + 1 : Nat) : Int) < 0 by omega), hk'] at this
        rw [this, List.countP_cons, List.length_cons]
        congr 2
        · congr 1; omega
        · congr 1; omega
      · rw [if_neg (by rw [hmin]; rintro (h0 | h0) <;> omega)]
        simp only [hneg, if_false, considered]
        have e : limit - (t : Int) = 0 := by omega
        rw [e]
        simp

/-- What the loop yields, also for very many records. -/
theorem ratio_counts {R : Type} (judge : R → Out Bool) (good : R → Bool) (limit : Int) (hl : limit ≤ 2 ^ 24) (records : List R)
    (h : ∀ r ∈ considered limit records, judge r = .ok (good r)) :
    ratio judge limit records = .ok (if considered limit records = [] then none
      else some ((min ((considered limit records).countP good) (2 ^ 24) : ℕ) / (min (considered limit records).length (2 ^ 24) : ℕ) : ℚ)) := by
  have he : (if limit < 0 then limit else limit - ((0 : Nat) : Int)) = limit := by split <;> simp
  have := loop_counts judge good limit hl records 0 0 (by rw [he]; exact h) (by omega)
  rw [he, show min 0 (2 ^ 24) = 0 by decide, Nat.zero_add, Nat.zero_add] at this
  unfold ratio
  rw [this]
  simp only [Out.map]
  congr 1
  by_cases h0 : considered limit records = []
  · rw [if_pos h0, if_pos (by rw [h0]; rfl)]
  · have := List.length_pos_iff.2 h0
    rw [if_neg h0, if_neg (by omega)]

theorem ratio_fraction {R : Type} (judge : R → Out Bool) (good : R → Prop) (limit : Int) (records : List R) (hl : limit ≤ 2 ^ 24)
    (hn : (considered limit records).length ≤ 2 ^ 24) (h : ∀ r ∈ considered limit records, ∃ b, judge r = .ok b ∧ (b = true ↔ good r)) :
    ratio judge limit records = .ok (fraction good (considered limit records)) := by
  classical
  rw [ratio_counts judge (fun r => decide (good r)) limit hl records (by
    intro r hr
    obtain ⟨b, hb, hg⟩ := h r hr
    rw [hb]
    congr 1
    rw [Bool.eq_iff_iff, hg, decide_eq_true_iff])]
  unfold fraction
  have h1 := List.countP_le_length (p := fun r => decide (good r)) (l := considered limit records)
  rw [Nat.min_eq_left hn, Nat.min_eq_left (le_trans h1 hn)]

/-! ### C113 -/

/-- The prediction for a record is decoded, and every decoded tensor equals the decoded expected one. -/
def Right (predict : List T → Out (List T)) (decoders : List (T → Out S)) (r : Record T) : Prop :=
  ∃ ps, predict r.given = .ok ps ∧ ∀ (i : Nat) (d : T → Out S), decoders[i]? = some d → ∃ p a x, ps[i]? = some p ∧ r.expected[i]? = some a ∧ d p = .ok x ∧ d a = .ok x

/-- The prediction succeeds, and all tensors can be decoded. -/
def Decodable (predict : List T → Out (List T)) (decoders : List (T → Out S)) (r : Record T) : Prop :=
  ∃ ps, predict r.given = .ok ps ∧ ∀ (i : Nat) (d : T → Out S), decoders[i]? = some d → ∃ p a x y, ps[i]? = some p ∧ r.expected[i]? = some a ∧ d p = .ok x ∧ d a = .ok y

theorem sameDecoded_spec [DecidableEq S] (decoders : List (T → Out S)) (ps as : List T)
    (h : ∀ (i : Nat) (d : T → Out S), decoders[i]? = some d → ∃ p a x y, ps[i]? = some p ∧ as[i]? = some a ∧ d p = .ok x ∧ d a = .ok y) :
    ∃ b, sameDecoded decoders ps as = .ok b ∧
      (b = true ↔ ∀ (i : Nat) (d : T → Out S), decoders[i]? = some d → ∃ p a x, ps[i]? = some p ∧ as[i]? = some a ∧ d p = .ok x ∧ d a = .ok x) := by
  induction decoders generalizing ps as with
  | nil => exact ⟨true, by simp [sameDecoded], by simp⟩
  | cons d ds ih =>
    obtain ⟨p, a, x, y, hp, ha, hx, hy⟩ := h 0 d rfl
    cases ps with
    | nil => cases hp
    | cons p' ps =>
      cases as with
      | nil => cases ha
      | cons a' as =>
        cases hp
        cases ha
        unfold sameDecoded
        rw [hx]
        simp only [hy]
        by_cases hxy : x = y
        · rw [if_neg (by simpa using hxy)]
          obtain ⟨b, hb, hb'⟩ := ih ps as fun i e he => h (i + 1) e he
          refine ⟨b, hb, hb'.trans ⟨?_, ?_⟩⟩
          · intro hall i e he
            cases i with
            | zero =>
              cases he
              exact ⟨p, a, x, rfl, rfl, hx, hxy ▸ hy⟩
            | succ i => exact hall i e he
          · intro hall i e he
            exact hall (i + 1) e he
        · rw [if_pos hxy]
          refine ⟨false, rfl, ⟨fun h => (by cases h), fun hall => ?_⟩⟩
          obtain ⟨p', a', x', e1, e2, e3, e4⟩ := hall 0 d rfl
          cases e1
          cases e2
          rw [hx] at e3
          rw [hy] at e4
          cases e3
          cases e4
          exact absurd rfl hxy

/-- C113: the fraction of the considered records that are right, or not a number if there are none. Missing: more than 2^24 records
(`C113_many_violated`). -/
theorem C113_partial [DecidableEq S] (predict : List T → Out (List T)) (decoders : List (T → Out S)) (limit : Int) (records : List (Record T)) (hl : limit ≤ 2 ^ 24)
    (hn : (considered limit records).length ≤ 2 ^ 24) (h : ∀ r ∈ considered limit records, Decodable predict decoders r) :
    categorical predict decoders limit records = .ok (fraction (Right predict decoders) (considered limit records)) := by
  unfold categorical
  apply ratio_fraction _ _ _ _ hl hn
  intro r hr
  obtain ⟨ps, hp, hd⟩ := h r hr
  obtain ⟨b, hb, hb'⟩ := sameDecoded_spec decoders ps r.expected hd
  refine ⟨b, by simp only [hp]; exact hb, hb'.trans ⟨fun hall => ⟨ps, hp, hall⟩, ?_⟩⟩
  rintro ⟨ps', hp', hall⟩
  rw [hp] at hp'
  cases hp'
  exact hall

/-- C113 for columns of labels, as the dataset encodes them: the accuracy is the fraction of the records for which the best label of every prediction is the label
in the record. -/
theorem C113_labels_partial [Field F] [LinearOrder F] [IsStrictOrderedRing F] (predict : List (Tensor F) → Out (List (Tensor F))) (columns : List (List Str))
    (hc : ∀ l ∈ columns, l.Nodup) (records : List (List (Tensor F) × List Str)) (hn : records.length ≤ 2 ^ 24)
    (hw : ∀ r ∈ records, List.Forall₂ (fun w l => strip w ∈ l) r.2 columns) (expected : List Str → List (Tensor F))
    (he : ∀ r ∈ records, List.Forall₂ (fun t (wl : Str × List Str) => Encoders.categoryEncode wl.2 [wl.1] 1 wl.2.length 1 true = .ok t) (expected r.2)
      (r.2.zip columns))
    (hp : ∀ r ∈ records, ∃ ps, predict r.1 = .ok ps ∧ List.Forall₂ (fun t (l : List Str) => t.cols = l.length) ps columns) :
    categorical predict (columns.map Encoders.decodeBest) (-1) (records.map fun r => ⟨r.1, expected r.2⟩) =
      .ok (fraction (fun r => ∃ ps, predict r.1 = .ok ps ∧
        List.Forall₂ (fun (pl : Tensor F × List Str) w => Encoders.decodeBest pl.2 pl.1 = .ok (strip w)) (ps.zip columns) r.2) records) := by
  have hcons : ∀ {R : Type} (l : List R), considered (-1) l = l := fun l => rfl
  have key : ∀ r ∈ records, ∃ ps, predict r.1 = .ok ps ∧ ps.length = columns.length ∧ r.2.length = columns.length ∧ (expected r.2).length = columns.length ∧
      ∀ i (h1 : i < ps.length) (h2 : i < columns.length) (h3 : i < r.2.length) (h4 : i < (expected r.2).length),
        Encoders.decodeBest columns[i] (expected r.2)[i] = .ok (strip r.2[i]) ∧ ∃ x, Encoders.decodeBest columns[i] ps[i] = .ok x := by
    intro r hr
    obtain ⟨ps, hps, hshape⟩ := hp r hr
    have l1 := hshape.length_eq
    have l2 := (hw r hr).length_eq
    have l3 := (he r hr).length_eq
    rw [List.length_zip, l2, Nat.min_self] at l3
    refine ⟨ps, hps, l1, l2, l3, ?_⟩
    intro i h1 h2 h3 h4
    have a1 := (List.forall₂_iff_get.1 hshape).2 i h1 h2
    have a2 := (List.forall₂_iff_get.1 (hw r hr)).2 i h3 h2
    have a3 := (List.forall₂_iff_get.1 (he r hr)).2 i h4 (by rw [List.length_zip]; omega)
    simp only [List.get_eq_getElem, List.getElem_zip] at a1 a2 a3
    obtain ⟨t, e1, e2⟩ := Encoders.C52 (F := F) columns[i] (hc _ (List.getElem_mem h2)) r.2[i] a2
    rw [a3] at e1
    cases e1
    refine ⟨e2, ?_⟩
    obtain ⟨_, x, _, _, hx, _⟩ := Encoders.C52_prediction columns[i] ps[i] a1 (by rw [a1]; exact List.length_pos_of_mem a2)
    exact ⟨x, hx⟩
  rw [C113_partial predict _ (-1) _ (by decide) (by rw [hcons, List.length_map]; exact hn)]
  · rw [hcons]
    congr 1
    unfold fraction
    by_cases h0 : records = []
    · rw [if_pos h0, if_pos (by rw [h0]; rfl)]
    · rw [if_neg h0, if_neg (by simpa using h0), List.countP_map, List.length_map]
      congr 3
      apply List.countP_congr
      intro r hr
      simp only [Function.comp_apply, decide_eq_true_iff]
      obtain ⟨ps, hps, l1, l2, l3, hk⟩ := key r hr
      constructor
      · rintro ⟨ps', hps', hall⟩
        rw [hps] at hps'
        cases hps'
        refine ⟨ps, hps, ?_⟩
        rw [List.forall₂_iff_get]
        refine ⟨by rw [List.length_zip]; omega, ?_⟩
        intro i h1 h2
        rw [List.length_zip] at h1
        simp only [List.get_eq_getElem, List.getElem_zip]
        obtain ⟨p, a, x, e1, e2, e3, e4⟩ := hall i _ (by rw [List.getElem?_map, List.getElem?_eq_getElem (by omega)]; rfl)
        rw [List.getElem?_eq_getElem (by omega)] at e1
        simp only at e2
        rw [List.getElem?_eq_getElem (by omega)] at e2
        cases e1
        cases e2
        rw [(hk i (by omega) (by omega) h2 (by omega)).1] at e4
        rw [e3, ← e4]
      · rintro ⟨ps', hps', hall⟩
        rw [hps] at hps'
        cases hps'
        refine ⟨ps, hps, ?_⟩
        intro i d hd
        rw [List.getElem?_map, Option.map_eq_some_iff] at hd
        obtain ⟨l, hl, rfl⟩ := hd
        obtain ⟨hi, rfl⟩ := List.getElem?_eq_some_iff.1 hl
        have := (List.forall₂_iff_get.1 hall).2 i (by rw [List.length_zip]; omega) (by omega)
        simp only [List.get_eq_getElem, List.getElem_zip] at this
        exact ⟨ps[i], (expected r.2)[i], _, List.getElem?_eq_getElem _, List.getElem?_eq_getElem _, this, (hk i (by omega) hi (by omega) (by omega)).1⟩
  · rw [hcons]
    intro r' hr'
    rw [List.mem_map] at hr'
    obtain ⟨r, hr, rfl⟩ := hr'
    obtain ⟨ps, hps, l1, l2, l3, hk⟩ := key r hr
    refine ⟨ps, hps, ?_⟩
    intro i d hd
    rw [List.getElem?_map, Option.map_eq_some_iff] at hd
    obtain ⟨l, hl, rfl⟩ := hd
    obtain ⟨hi, rfl⟩ := List.getElem?_eq_some_iff.1 hl
    obtain ⟨k1, x, k2⟩ := hk i (by omega) hi (by omega) (by omega)
    exact ⟨ps[i], (expected r.2)[i], x, _, List.getElem?_eq_getElem _, List.getElem?_eq_getElem _, k2, k1⟩

/-- C113 fails for more than 2^24 records: with that many right ones, any number of wrong ones leaves the accuracy at one. -/
theorem C113_many_violated [DecidableEq S] (predict : List T → Out (List T)) (decoders : List (T → Out S)) (right wrong : Record T) (k : Nat) (hk : 0 < k)
    (hr : Decodable predict decoders right ∧ Right predict decoders right) (hw : Decodable predict decoders wrong ∧ ¬ Right predict decoders wrong) :
    categorical predict decoders (-1) (List.replicate (2 ^ 24) right ++ List.replicate k wrong) = .ok (some 1) ∧
      fraction (Right predict decoders) (List.replicate (2 ^ 24) right ++ List.replicate k wrong) = some ((2 ^ 24 : ℕ) / (2 ^ 24 + k : ℕ) : ℚ) := by
  classical
  generalize hN : (2 ^ 24 : Nat) = N
  have hN0 : 0 < N := by rw [← hN]; exact Nat.two_pow_pos 24
  have hc : (List.replicate N right ++ List.replicate k wrong).countP (fun r => decide (Right predict decoders r)) = N := by
    rw [List.countP_append, List.countP_replicate, List.countP_replicate]
    simp [hr.2, hw.2]
  have hne : List.replicate N right ++ List.replicate k wrong ≠ [] := by
    intro h
    have := congrArg List.length h
    simp at this
    omega
  constructor
  · unfold categorical
    rw [ratio_counts _ (fun r => decide (Right predict decoders r)) (-1) (by decide)]
    · show Out.ok (if List.replicate N right ++ List.replicate k wrong = [] then none else _) = _
      rw [if_neg hne]
      show Out.ok (some (((min ((List.replicate N right ++ List.replicate k wrong).countP fun r => decide (Right predict decoders r)) (2 ^ 24) : ℕ) : ℚ) /
        ((min (List.replicate N right ++ List.replicate k wrong).length (2 ^ 24) : ℕ) : ℚ))) = _
      rw [hc, hN, Nat.min_self, List.length_append, List.length_replicate, List.length_replicate, Nat.min_eq_right (Nat.le_add_right N k), div_self]
      exact_mod_cast hN0.ne'
    · intro r hr'
      have hmem : r = right ∨ r = wrong := by
        have : r ∈ List.replicate N right ++ List.replicate k wrong := hr'
        rw [List.mem_append, List.mem_replicate, List.mem_replicate] at this
        tauto
      have hdec : Decodable predict decoders r := by
        rcases hmem with rfl | rfl
        · exact hr.1
        · exact hw.1
      obtain ⟨ps, hp, hd⟩ := hdec
      obtain ⟨b, hb, hb'⟩ := sameDecoded_spec decoders ps r.expected hd
      simp only [hp, hb]
      congr 1
      rw [Bool.eq_iff_iff, hb', decide_eq_true_iff]
      refine ⟨fun hall => ⟨ps, hp, hall⟩, ?_⟩
      rintro ⟨ps', hp', hall⟩
      rw [hp] at hp'
      cases hp'
      exact hall
  · unfold fraction
    rw [if_neg hne]
    congr 2
    · rw [← hc]
      congr
    · rw [List.length_append, List.length_replicate, List.length_replicate]

/-! ### C114 -/

/-- Two tensors of the same size whose elements round to the same numbers, in order. -/
def Agree (rnd : F → Int) (p a : Tensor F) : Prop := (Views.values p).map rnd = (Views.values a).map rnd

theorem sameRounded_spec (rnd : F → Int) (p a : Tensor F) (n j : Nat) (hp : j + n ≤ p.size) (ha : j + n ≤ a.size) :
    ∃ b, sameRounded rnd p a n j = .ok b ∧ (b = true ↔ ∀ i, j ≤ i → i < j + n → rnd (Views.offsetGet p i) = rnd (Views.offsetGet a i)) := by
  induction n generalizing j with
  | zero => exact ⟨true, rfl, by simp; intro i h1 h2; omega⟩
  | succ n ih =>
    unfold sameRounded
    rw [if_neg (by omega)]
    by_cases h : rnd (Views.offsetGet p j) = rnd (Views.offsetGet a j)
    · rw [if_neg (by simpa using h)]
      obtain ⟨b, hb, hb'⟩ := ih (j + 1) (by omega) (by omega)
      refine ⟨b, hb, hb'.trans ⟨?_, ?_⟩⟩
      · intro hall i h1 h2
        by_cases hij : i = j
        · rw [hij]; exact h
        · exact hall i (by omega) (by omega)
      · intro hall i h1 h2
        exact hall i (by omega) (by omega)
    · rw [if_pos h]
      exact ⟨false, rfl, ⟨fun h => (by cases h), fun hall => absurd (hall j le_rfl (by omega)) h⟩⟩

/-- The first `n` elements of two tensors round to the same numbers. -/
def AgreeOn (rnd : F → Int) (n : Nat) (p a : Tensor F) : Prop := ((Views.values p).map rnd).take n = ((Views.values a).map rnd).take n

theorem agreeOn_iff (rnd : F → Int) (n : Nat) (p a : Tensor F) (hp : n ≤ p.size) (ha : n ≤ a.size) :
    AgreeOn rnd n p a ↔ ∀ i, 0 ≤ i → i < 0 + n → rnd (Views.offsetGet p i) = rnd (Views.offsetGet a i) := by
  have hv : ∀ t : Tensor F, n ≤ t.size → ((Views.values t).map rnd).take n = (List.range n).map fun i => rnd (Views.offsetGet t i) := by
    intro t ht
    rw [Views.values_eq_offsets, List.map_map, ← List.map_take, List.take_range, Nat.min_eq_left ht]
    rfl
  unfold AgreeOn
  rw [hv p hp, hv a ha]
  constructor
  · intro h i _ hi
    have := congrArg (fun l => l[i]?) h
    simpa [List.getElem?_range (show i < n by omega)] using this
  · intro h
    apply List.map_congr_left
    intro i hi
    rw [List.mem_range] at hi
    exact h i (Nat.zero_le _) (by omega)

theorem sameColumns_spec (rnd : F → Int) (n : Nat) (ps as : List (Tensor F)) (hl : ps.length = as.length) (hp : ∀ p ∈ ps, n ≤ p.size) (ha : ∀ a ∈ as, n ≤ a.size) :
    ∃ b, sameColumns rnd n ps.length ps as = .ok b ∧ (b = true ↔ List.Forall₂ (AgreeOn rnd n) ps as) := by
  induction ps generalizing as with
  | nil =>
    cases as with
    | nil => exact ⟨true, rfl, by simp⟩
    | cons => simp at hl
  | cons p ps ih =>
    cases as with
    | nil => simp at hl
    | cons a as =>
      obtain ⟨b, hb, hb'⟩ := ih as (by simpa using hl) (fun x hx => hp x (List.mem_cons_of_mem _ hx)) (fun x hx => ha x (List.mem_cons_of_mem _ hx))
      have hps := hp p List.mem_cons_self
      have has := ha a List.mem_cons_self
      obtain ⟨c, hc, hc'⟩ := sameRounded_spec rnd p a n 0 (by omega) (by omega)
      rw [List.length_cons]
      unfold sameColumns
      rw [hc]
      simp only [hb, Out.map]
      refine ⟨c && b, rfl, ?_⟩
      rw [Bool.and_eq_true, hc', hb', List.forall₂_cons, agreeOn_iff rnd n p a hps has]

/-- The prediction has as many tensors as are expected, with as many elements. -/
def Fitting (predict : List (Tensor F) → Out (List (Tensor F))) (columns : Nat) (size : Nat → Prop) (r : Record (Tensor F)) : Prop :=
  ∃ ps, predict r.given = .ok ps ∧ ps.length = columns ∧ r.expected.length = columns ∧ (∀ p ∈ ps, size p.size) ∧ ∀ a ∈ r.expected, size a.size

/-- What the code computes: the fraction of the records for which in every column the first elements agree, as many as there are columns. -/
theorem C114_first (rnd : F → Int) (predict : List (Tensor F) → Out (List (Tensor F))) (columns : Nat) (limit : Int) (records : List (Record (Tensor F)))
    (hl : limit ≤ 2 ^ 24) (hn : (considered limit records).length ≤ 2 ^ 24) (h : ∀ r ∈ considered limit records, Fitting predict columns (columns ≤ ·) r) :
    binary rnd predict columns limit records =
      .ok (fraction (fun r => ∃ ps, predict r.given = .ok ps ∧ List.Forall₂ (AgreeOn rnd columns) ps r.expected) (considered limit records)) := by
  unfold binary
  apply ratio_fraction _ _ _ _ hl hn
  intro r hr
  obtain ⟨ps, hp, l1, l2, s1, s2⟩ := h r hr
  obtain ⟨b, hb, hb'⟩ := sameColumns_spec rnd columns ps r.expected (by omega) s1 s2
  rw [l1] at hb
  refine ⟨b, by simp only [hp, l1]; exact hb, hb'.trans ⟨fun hall => ⟨ps, hp, hall⟩, ?_⟩⟩
  rintro ⟨ps', hp', hall⟩
  rw [hp] at hp'
  cases hp'
  exact hall

/-- C114: the fraction of the records for which all elements agree, if every column has as many elements as there are columns; for example, one column with one
element. Missing: all other shapes (`C114_elements_violated`, `C114_throws_violated`), and more than 2^24 records. -/
theorem C114_partial (rnd : F → Int) (predict : List (Tensor F) → Out (List (Tensor F))) (columns : Nat) (limit : Int) (records : List (Record (Tensor F)))
    (hl : limit ≤ 2 ^ 24) (hn : (considered limit records).length ≤ 2 ^ 24) (h : ∀ r ∈ considered limit records, Fitting predict columns (columns = ·) r) :
    binary rnd predict columns limit records =
      .ok (fraction (fun r => ∃ ps, predict r.given = .ok ps ∧ List.Forall₂ (Agree rnd) ps r.expected) (considered limit records)) := by
  rw [C114_first rnd predict columns limit records hl hn]
  · congr 1
    unfold fraction
    split
    · rfl
    · congr 3
      apply List.countP_congr
      intro r hr
      simp only [decide_eq_true_iff]
      obtain ⟨ps, hp, l1, l2, s1, s2⟩ := h r hr
      have hsz : ∀ t : Tensor F, columns = t.size → ((Views.values t).map rnd).take columns = (Views.values t).map rnd := by
        intro t ht
        apply List.take_of_length_le
        rw [List.length_map, Views.values_eq_offsets, List.length_map, List.length_range, ht]
      have heq : ∀ ps : List (Tensor F), (∀ p ∈ ps, columns = p.size) → (List.Forall₂ (AgreeOn rnd columns) ps r.expected ↔ List.Forall₂ (Agree rnd) ps r.expected) := by
        intro ps hps
        rw [List.forall₂_iff_get, List.forall₂_iff_get]
        refine and_congr Iff.rfl (forall_congr' fun i => forall_congr' fun h1 => forall_congr' fun h2 => ?_)
        unfold AgreeOn Agree
        rw [hsz _ (hps _ (List.get_mem _ _)), hsz _ (s2 _ (List.get_mem _ _))]
      constructor
      · rintro ⟨ps', hp', hall⟩
        rw [hp] at hp'
        cases hp'
        exact ⟨ps, hp, (heq ps s1).1 hall⟩
      · rintro ⟨ps', hp', hall⟩
        rw [hp] at hp'
        cases hp'
        exact ⟨ps, hp, (heq ps s1).2 hall⟩
  · intro r hr
    obtain ⟨ps, hp, l1, l2, s1, s2⟩ := h r hr
    exact ⟨ps, hp, l1, l2, fun p hp => (s1 p hp).le, fun a ha => (s2 a ha).le⟩

/-- C114 fails for a single column with several elements: only the first one counts. A record whose prediction is wrong everywhere else counts as right. -/
theorem C114_elements_violated (rnd : F → Int) (p a : Tensor F) (hp : 1 ≤ p.size) (ha : 1 ≤ a.size) (h0 : rnd (Views.offsetGet p 0) = rnd (Views.offsetGet a 0))
    (hd : ¬ Agree rnd p a) :
    binary rnd (fun _ => .ok [p]) 1 (-1) [⟨[], [a]⟩] = .ok (some 1) ∧
      fraction (fun r : Record (Tensor F) => ∃ ps, Out.ok [p] = .ok ps ∧ List.Forall₂ (Agree rnd) ps r.expected) [⟨[], [a]⟩] = some 0 := by
  constructor
  · have h1 : ¬ (p.size = 0 ∨ a.size = 0) := by omega
    unfold binary ratio loop
    simp [sameColumns, sameRounded, h1, h0, Out.map, loop, inc]
  · unfold fraction
    simp [hd]

/-- C114 fails for several columns of one element each: reading a second element throws an exception, unless the first one is wrong already. -/
theorem C114_throws_violated (rnd : F → Int) (p q a b : Tensor F) (hp : p.size = 1) (ha : a.size = 1) (h0 : rnd (Views.offsetGet p 0) = rnd (Views.offsetGet a 0)) :
    binary rnd (fun _ => .ok [p, q]) 2 (-1) [⟨[], [a, b]⟩] = .throws := by
  have h1 : ¬ (p.size = 0 ∨ a.size = 0) := by omega
  have h2 : p.size ≤ 1 ∨ a.size ≤ 1 := by omega
  unfold binary ratio loop
  simp [sameColumns, sameRounded, h1, h2, h0, Out.map]

/-- Two records, one of them right, for both kinds of accuracy. -/
example : categorical (T := Nat) (S := Nat) (fun g => .ok g) [fun x => .ok (x / 10), fun x => .ok x] (-1) [⟨[17, 3], [12, 3]⟩, ⟨[17, 3], [12, 4]⟩] =
    .ok (some (1 / 2)) := by
  simp [categorical, ratio, loop, sameDecoded, inc, Out.map]

example : ∀ r ∈ considered (-1) [(⟨[17, 3], [12, 3]⟩ : Record Nat), ⟨[17, 3], [12, 4]⟩],
    Decodable (T := Nat) (S := Nat) (fun g => .ok g) [fun x => .ok (x / 10), fun x => .ok x] r := by
  intro r hr
  simp only [considered, show (-1 : Int) < 0 by decide, if_true, List.mem_cons, List.not_mem_nil, or_false] at hr
  refine ⟨r.given, rfl, ?_⟩
  intro i d hd
  match i with
  | 0 => cases hd; rcases hr with rfl | rfl <;> exact ⟨_, _, _, _, rfl, rfl, rfl, rfl⟩
  | 1 => cases hd; rcases hr with rfl | rfl <;> exact ⟨_, _, _, _, rfl, rfl, rfl, rfl⟩
  | i + 2 => cases hd

example : Fitting (F := ℚ) (fun g => .ok g) 1 (1 = ·) ⟨[⟨1, 1, 1, fun _ _ _ => 1 / 2⟩], [⟨1, 1, 1, fun _ _ _ => 1⟩]⟩ :=
  ⟨_, rfl, rfl, rfl, by simp [Tensor.size], by simp [Tensor.size]⟩

/-- A right record and a wrong one, as `C113_many_violated` needs them. -/
example : Right (T := Nat) (S := Nat) (fun g => .ok g) [fun x => .ok (x / 10), fun x => .ok x] ⟨[17, 3], [12, 3]⟩ ∧
    ¬ Right (T := Nat) (S := Nat) (fun g => .ok g) [fun x => .ok (x / 10), fun x => .ok x] ⟨[17, 3], [12, 4]⟩ := by
  constructor
  · refine ⟨_, rfl, ?_⟩
    intro i d hd
    match i with
    | 0 => cases hd; exact ⟨_, _, _, rfl, rfl, rfl, rfl⟩
    | 1 => cases hd; exact ⟨_, _, _, rfl, rfl, rfl, rfl⟩
    | i + 2 => cases hd
  · rintro ⟨ps, hps, h⟩
    cases hps
    obtain ⟨p, a, x, h1, h2, h3, h4⟩ := h 1 _ rfl
    cases h1
    cases h2
    cases h3
    cases h4

/-- Two records with the labels "A" and " B", and a network that always prefers "B". -/
example : ∃ expected : List Str → List (Tensor ℚ), (∀ l ∈ [[[65], [66]]], l.Nodup) ∧
    (∀ r ∈ [([], [[65]]), (([], [[32, 66]]) : List (Tensor ℚ) × List Str)], List.Forall₂ (fun w l => strip w ∈ l) r.2 [[[65], [66]]]) ∧
    (∀ r ∈ [([], [[65]]), (([], [[32, 66]]) : List (Tensor ℚ) × List Str)],
      List.Forall₂ (fun t (wl : Str × List Str) => Encoders.categoryEncode wl.2 [wl.1] 1 wl.2.length 1 true = .ok t) (expected r.2) (r.2.zip [[[65], [66]]])) ∧
    (∀ r ∈ [([], [[65]]), (([], [[32, 66]]) : List (Tensor ℚ) × List Str)], ∃ ps : List (Tensor ℚ),
      (fun _ => Out.ok [⟨1, 2, 1, fun _ c _ => c⟩] : List (Tensor ℚ) → Out (List (Tensor ℚ))) r.1 = .ok ps ∧
      List.Forall₂ (fun t (l : List Str) => t.cols = l.length) ps [[[65], [66]]]) := by
  obtain ⟨t, ht, _⟩ := Encoders.C52 (F := ℚ) [[65], [66]] (by decide) [65] (by decide)
  obtain ⟨u, hu, _⟩ := Encoders.C52 (F := ℚ) [[65], [66]] (by decide) [32, 66] (by decide)
  refine ⟨fun ws => if ws = [[65]] then [t] else [u], by decide, ?_, ?_, ?_⟩
  · intro r hr
    simp only [List.mem_cons, List.not_mem_nil, or_false] at hr
    rcases hr with rfl | rfl
    · exact .cons (by decide) .nil
    · exact .cons (by decide) .nil
  · intro r hr
    simp only [List.mem_cons, List.not_mem_nil, or_false] at hr
    rcases hr with rfl | rfl
    · exact .cons ht .nil
    · exact .cons hu .nil
  · intro r _
    exact ⟨_, rfl, .cons rfl .nil⟩

/-- Two tensors that agree in the first of two elements only. -/
example : ¬ Agree (F := ℚ) (fun x => ⌊x + 1 / 2⌋) ⟨1, 2, 1, fun _ _ _ => 0⟩ ⟨1, 2, 1, fun _ c _ => c⟩ := by
  unfold Agree
  decide +kernel

end Verif.Accuracy
