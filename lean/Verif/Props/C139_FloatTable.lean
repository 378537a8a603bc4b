import Verif.Lemmas.FloatTable
import Verif.Props.C136_FloatAdam

/-!
C139: a linear model of labels, trained in 32-bit floats. The prediction for a label is its row of weights; a record changes only the row of its label and moves
it towards the expected numbers, never past them, so that rows stay in the range of what was expected; if a label is always seen with the same numbers its
row settles, near them. It need not reach them, and with a learning rate of 1 it never settles.
-/
namespace Verif.FloatTable
open Verif FloatBits Rounding FloatOrder FloatActivation FloatLoss FloatAdam Views

/-- The prediction for a label is its row of weights. -/
theorem C139_predict (n m i : Nat) (w : Tensor F32) (hw : Table n m w) (hi : i < n) :
    ∃ p, predict w (oneHot n i) = some p ∧ p.rows = 1 ∧ p.cols = m ∧ p.chans = 1 ∧
      ∀ j, j < m → IsFinite (p.get 0 j 0) ∧ real (p.get 0 j 0) = real (w.get i j 0) := by
  obtain ⟨h1, h2, h3, h4⟩ := hw
  refine ⟨⟨1, w.cols, 1, fun r c k => sumLoop n fun a => (oneHot n i).get r a k * w.get a c k⟩, ?_, rfl, h2, rfl, ?_⟩
  · show (matmul (oneHot n i) w).bind (FloatNetwork.predict [.activation .linear]) = _
    unfold matmul
    rw [if_neg (by rw [h1]; exact fun h => h rfl), if_neg (by rw [h3]; exact fun h => h rfl)]
    rfl
  · intro j hj
    obtain ⟨g1, g2⟩ := pick n i (fun a => w.get a j 0) fun k hk => (h4 k j hk hj).1
    rw [if_pos hi] at g2
    exact ⟨g1, g2⟩

/-- What a record does to a table. -/
theorem step_formula (n m : Nat) (rate : F32) (w : Tensor F32) (r : Labelled) (w1 : w.rows = n) (w2 : w.cols = m) (w3 : w.chans = 1) (r1 : r.label < n)
    (r2 : r.expected.rows = 1) (r3 : r.expected.cols = m) (r4 : r.expected.chans = 1) (p : Tensor F32) (p1 : predict w (oneHot n r.label) = some p)
    (p2 : p.rows = 1) (p3 : p.cols = m) (p4 : p.chans = 1) :
    ∃ v, step rate w (r.record n) = some v ∧ v.rows = n ∧ v.cols = m ∧ v.chans = 1 ∧ ∀ i j, i < n → j < m →
      v.get i j 0 = w.get i j 0 - rate * ((0 + (if i = r.label then one else 0) * (one * (two * (p.get 0 j 0 - r.expected.get 0 j 0)))) / one) := by
  let e : Tensor F32 := ⟨p.rows, p.cols, p.chans, fun a b c => p.get a b c - r.expected.get a b c⟩
  have he : subtract p r.expected = some e := by
    unfold subtract zip
    rw [if_neg (by rw [p2, p3, p4, r2, r3, r4]; simp)]
  let d : Tensor F32 := ⟨p.rows, p.cols, p.chans, fun a b c => one * (two * (p.get a b c - r.expected.get a b c))⟩
  have hd : multiply (map (fun _ => one) p) (map (fun x => two * x) e) = some d := by
    unfold multiply zip
    rw [if_neg (by simp [map, e])]
    rfl
  let g : Tensor F32 := ⟨n, m, 1, fun a b c => sumLoop 1 fun q => (oneHot n r.label).get q a c * d.get q b c⟩
  have hg : matmul (transpose (oneHot n r.label)) d = some g := by
    unfold matmul
    rw [if_neg (by simp [transpose, oneHot, d, p2]), if_neg (by simp [transpose, oneHot, d, p4])]
    show some _ = some g
    congr 1
    show Tensor.mk n p.cols 1 _ = Tensor.mk n m 1 _
    rw [p3]
    rfl
  obtain ⟨v, hv⟩ : ∃ v, FloatUpdate.update 32 rate w (map (fun x => x / one) g) = some v := by
    unfold FloatUpdate.update FloatUpdate.change subtract zip
    rw [if_neg (by simp [map, g, w1, w2, w3])]
    exact ⟨_, rfl⟩
  have hs : step rate w (r.record n) = some v := by
    unfold step Labelled.record
    simp only [p1, Option.bind_some]
    rw [he]
    simp only [Option.bind_some]
    rw [hd]
    simp only [Option.bind_some]
    rw [hg]
    exact hv
  have shape : v.rows = w.rows ∧ v.cols = w.cols ∧ v.chans = w.chans := by
    unfold FloatUpdate.update FloatUpdate.change subtract zip at hv
    rw [if_neg (by simp [map, g, w1, w2, w3]), Option.map_some] at hv
    have hv' := Option.some.inj hv
    obtain ⟨s1, s2, s3, -⟩ := Materialize.stored_same id ⟨w.rows, w.cols, w.chans, fun a b c => (w.get a b c - rate * (g.get a b c / one)).bits⟩
      (show 0 < w.chans by omega) (show 0 < w.rows by omega)
    rw [← hv']
    exact ⟨s1, s2, s3⟩
  refine ⟨v, hs, by rw [shape.1, w1], by rw [shape.2.1, w2], by rw [shape.2.2, w3], fun i j hi hj => ?_⟩
  obtain ⟨-, -, -, q⟩ := update_element 32 (by tauto) rate w _ v hv i j 0 (by omega) (by omega) (by omega)
  rw [if_neg (by decide)] at q
  exact q

/-- The elements of the table after a record. -/
theorem step_elements (n m : Nat) (rate : F32) (w : Tensor F32) (r : Labelled) (hw : Table n m w) (hr : r.Ok n m) :
    ∃ v, step rate w (r.record n) = some v ∧ v.rows = n ∧ v.cols = m ∧ v.chans = 1 ∧
      ∀ i j, i < n → j < m → ∃ p g, v.get i j 0 = w.get i j 0 - rate * g ∧ Rounding.Finite g ∧
        (i = r.label → Rounding.Finite p ∧ real p = real (w.get i j 0) ∧ real g = real (two * (p - r.expected.get 0 j 0))) ∧ (i ≠ r.label → real g = 0) := by
  obtain ⟨r1, r2, r3, r4, r5⟩ := hr
  obtain ⟨p, p1, p2, p3, p4, p5⟩ := C139_predict n m r.label w hw r1
  obtain ⟨w1, w2, w3, w4⟩ := hw
  obtain ⟨v, v1, v2, v3, v4, v5⟩ := step_formula n m rate w r w1 w2 w3 r1 r2 r3 r4 p p1 p2 p3 p4
  refine ⟨v, v1, v2, v3, v4, fun i j hi hj => ?_⟩
  have q := v5 i j hi hj
  obtain ⟨f1, f2⟩ := p5 j hj
  have hps : Small (p.get 0 j 0) := ⟨f1, by rw [f2]; exact (w4 r.label j r1 hj).2⟩
  obtain ⟨-, -, -, t4, -⟩ := gradient (p.get 0 j 0) (r.expected.get 0 j 0) hps (r5 j hj)
  obtain ⟨o1, o2⟩ := one_mul_facts _ t4
  obtain ⟨g, hgd⟩ : ∃ g, 0 + (if i = r.label then one else 0) * (one * (two * (p.get 0 j 0 - r.expected.get 0 j 0))) = g := ⟨_, rfl⟩
  rw [hgd] at q
  have hgel : Rounding.Finite g ∧ real g = if i = r.label then real (two * (p.get 0 j 0 - r.expected.get 0 j 0)) else 0 := by
    rw [← hgd]
    by_cases hl : i = r.label
    · rw [if_pos hl, if_pos hl]
      obtain ⟨a1, a2⟩ := one_mul_facts _ o1
      obtain ⟨b1, b2⟩ := add_exact 0 _ _ (by decide) a1 t4 (by rw [real_zero, zero_add, a2, o2])
      exact ⟨b1, b2⟩
    · rw [if_neg hl, if_neg hl]
      obtain ⟨a1, a2⟩ := zero_mul_facts _ o1
      obtain ⟨b1, b2⟩ := add_exact 0 _ 0 (by decide) a1 (by decide) (by rw [real_zero, zero_add, a2])
      exact ⟨b1, by rw [b2, real_zero]⟩
  obtain ⟨c1, c2⟩ := div_one_real _ hgel.1
  refine ⟨p.get 0 j 0, g / one, q, c1, fun hl => ⟨f1, by rw [f2, hl], ?_⟩, fun hl => ?_⟩
  · rw [c2, hgel.2, if_pos hl]
  · rw [c2, hgel.2, if_neg hl]

/-- A record does not change the rows of other labels, and moves the row of its label towards the expected numbers but not past them. -/
theorem C139_step (n m : Nat) (rate : F32) (hrate : Moderate rate) (w : Tensor F32) (r : Labelled) (hw : Table n m w) (hr : r.Ok n m) :
    ∃ v, step rate w (r.record n) = some v ∧ Table n m v ∧ ∀ i j, i < n → j < m →
      (i ≠ r.label → real (v.get i j 0) = real (w.get i j 0)) ∧
      (i = r.label → Between (real (w.get i j 0)) (real (r.expected.get 0 j 0)) (real (v.get i j 0))) := by
  obtain ⟨v, v1, v2, v3, v4, v5⟩ := step_elements n m rate w r hw hr
  have key : ∀ i j, i < n → j < m → Rounding.Finite (v.get i j 0) ∧ (i ≠ r.label → real (v.get i j 0) = real (w.get i j 0)) ∧
      (i = r.label → Between (real (w.get i j 0)) (real (r.expected.get 0 j 0)) (real (v.get i j 0))) := by
    intro i j hi hj
    obtain ⟨p, g, e, g1, g2, g3⟩ := v5 i j hi hj
    have hwij := hw.2.2.2 i j hi hj
    by_cases hl : i = r.label
    · obtain ⟨q1, q2, q3⟩ := g2 hl
      obtain ⟨a1, a2⟩ := approach rate _ _ p g hrate hwij (hr.2.2.2.2 j hj) q1 q2 g1 q3
      rw [e]
      exact ⟨a1, fun h => absurd hl h, fun _ => a2⟩
    · obtain ⟨a1, a2⟩ := unchanged rate _ g hrate.1 hwij g1 (g3 hl)
      rw [e]
      exact ⟨a1, fun _ => a2, fun h => absurd h hl⟩
  refine ⟨v, v1, ⟨v2, v3, v4, fun i j hi hj => ?_⟩, fun i j hi hj => (key i j hi hj).2⟩
  obtain ⟨k1, k2, k3⟩ := key i j hi hj
  refine ⟨k1, ?_⟩
  have hwij := hw.2.2.2 i j hi hj
  by_cases hl : i = r.label
  · obtain ⟨b1, b2⟩ := k3 hl
    obtain ⟨x1, x2⟩ := abs_le.mp hwij.2
    obtain ⟨y1, y2⟩ := abs_le.mp (hr.2.2.2.2 j hj).2
    exact abs_le.mpr ⟨le_trans (le_min x1 y1) b1, le_trans b2 (max_le x2 y2)⟩
  · rw [k2 hl]
    exact hwij.2

/-- During any training the row of a label stays within the range of its first values and of what is expected for the label. -/
theorem C139_range (n m : Nat) (rate : F32) (hrate : Moderate rate) (records : List Labelled) (w : Tensor F32) (hw : Table n m w)
    (hr : ∀ r ∈ records, r.Ok n m) :
    ∃ v, train rate w (records.map (Labelled.record n)) = some v ∧ Table n m v ∧ ∀ i j lo hi, i < n → j < m →
      (lo ≤ real (w.get i j 0) ∧ real (w.get i j 0) ≤ hi) →
      (∀ r ∈ records, r.label = i → lo ≤ real (r.expected.get 0 j 0) ∧ real (r.expected.get 0 j 0) ≤ hi) →
      lo ≤ real (v.get i j 0) ∧ real (v.get i j 0) ≤ hi := by
  induction records generalizing w with
  | nil => exact ⟨w, rfl, hw, fun i j lo hi _ _ h _ => h⟩
  | cons r rest ih =>
    obtain ⟨v, v1, v2, v3⟩ := C139_step n m rate hrate w r hw (hr r (by simp))
    obtain ⟨x, x1, x2, x3⟩ := ih v v2 fun s hs => hr s (by simp [hs])
    refine ⟨x, ?_, x2, fun i j lo hi hi' hj h hrs => x3 i j lo hi hi' hj ?_ fun s hs => hrs s (by simp [hs])⟩
    · show (step rate w (r.record n)).bind _ = _
      rw [v1]
      exact x1
    · obtain ⟨a1, a2⟩ := v3 i j hi' hj
      by_cases hl : i = r.label
      · obtain ⟨b1, b2⟩ := a2 hl
        obtain ⟨c1, c2⟩ := hrs r (by simp) hl.symm
        exact ⟨le_trans (le_min h.1 c1) b1, le_trans b2 (max_le h.2 c2)⟩
      · rw [a1 hl]
        exact h

/-- The first `k` records of a training that goes on for ever. -/
def after (rate : F32) (n : Nat) (w : Tensor F32) (records : Nat → Labelled) (k : Nat) : Option (Tensor F32) :=
  train rate w ((List.range k).map fun a => (records a).record n)

theorem train_append (rate : F32) (w : Tensor F32) (a : List Record) (r : Record) : train rate w (a ++ [r]) = (train rate w a).bind fun v => step rate v r := by
  induction a generalizing w with
  | nil =>
    show (step rate w r).bind (fun w => train rate w []) = step rate w r
    cases step rate w r <;> rfl
  | cons x rest ih =>
    show (step rate w x).bind (fun w => train rate w (rest ++ [r])) = ((step rate w x).bind fun w => train rate w rest).bind _
    cases step rate w x with
    | none => rfl
    | some v => exact ih v

theorem floats_finite : Set.Finite (Set.range real) := by
  have : _root_.Finite F32 := Finite.of_injective (fun a : F32 => a.bits.toFin) fun a b h => by
    have : a.bits = b.bits := BitVec.toFin_inj.mp h
    cases a; cases b; simp_all
  exact Set.finite_range _

/-- A monotone sequence of floats ends. -/
theorem settle (f : Nat → ℝ) (hf : ∀ k, f k ∈ Set.range real) (h : Monotone f ∨ Antitone f) : ∃ K, ∀ k, K ≤ k → f k = f K := by
  have hfin : (Set.range f).Finite := floats_finite.subset (by rintro _ ⟨k, rfl⟩; exact hf k)
  rcases h with h | h
  · obtain ⟨y, ⟨K, rfl⟩, hy⟩ := Set.exists_max_image _ id hfin ⟨f 0, 0, rfl⟩
    exact ⟨K, fun k hk => le_antisymm (hy (f k) ⟨k, rfl⟩) (h hk)⟩
  · obtain ⟨y, ⟨K, rfl⟩, hy⟩ := Set.exists_min_image _ id hfin ⟨f 0, 0, rfl⟩
    exact ⟨K, fun k hk => le_antisymm (h hk) (hy (f k) ⟨k, rfl⟩)⟩

/-- If a label is seen again and again with the same expected number, its weight settles, at a distance of about an ulp of the weight divided by the learning
rate. -/
theorem C139_settles (n m : Nat) (rate : F32) (hrate : Moderate rate) (w : Tensor F32) (hw : Table n m w) (records : Nat → Labelled)
    (hr : ∀ k, (records k).Ok n m) (i j : Nat) (hi : i < n) (hj : j < m) (t : ℝ)
    (ht : ∀ k, (records k).label = i → real ((records k).expected.get 0 j 0) = t) (hagain : ∀ K, ∃ k, K ≤ k ∧ (records k).label = i) :
    ∃ K x, (∀ k, K ≤ k → ∃ v, after rate n w records k = some v ∧ real (v.get i j 0) = x) ∧ Between (real (w.get i j 0)) t x ∧
      |x - t| ≤ (|x| / 2 ^ 23 + 1 / 2 ^ 148) / real rate := by
  have main : ∀ k, ∃ v, after rate n w records k = some v ∧ Table n m v := by
    intro k
    have e : ((List.range k).map fun a => (records a).record n) = ((List.range k).map records).map (Labelled.record n) := by rw [List.map_map]; rfl
    obtain ⟨v, v1, v2, -⟩ := C139_range n m rate hrate ((List.range k).map records) w hw (by
      intro r hrm
      obtain ⟨a, -, rfl⟩ := List.mem_map.mp hrm
      exact hr a)
    exact ⟨v, by unfold after; rw [e]; exact v1, v2⟩
  choose v v1 v2 using main
  have v0 : v 0 = w := (Option.some.inj ((v1 0).symm.trans rfl))
  have next : ∀ k, step rate (v k) ((records k).record n) = some (v (k + 1)) := by
    intro k
    have h := v1 (k + 1)
    unfold after at h
    rw [List.range_succ, List.map_append, List.map_singleton, train_append] at h
    have h2 := v1 k
    unfold after at h2
    rw [h2] at h
    exact h
  have change : ∀ k, ((records k).label ≠ i → real ((v (k + 1)).get i j 0) = real ((v k).get i j 0)) ∧
      ((records k).label = i → Between (real ((v k).get i j 0)) t (real ((v (k + 1)).get i j 0))) := by
    intro k
    obtain ⟨x, x1, -, x3⟩ := C139_step n m rate hrate (v k) (records k) (v2 k) (hr k)
    rw [next k] at x1
    cases x1
    obtain ⟨a1, a2⟩ := x3 i j hi hj
    refine ⟨fun h => a1 (Ne.symm h), fun h => ?_⟩
    have := a2 h.symm
    rwa [ht k h] at this
  let f : Nat → ℝ := fun k => real ((v k).get i j 0)
  have hmono : (t ≤ f 0 → ∀ k, t ≤ f k ∧ f (k + 1) ≤ f k) ∧ (f 0 ≤ t → ∀ k, f k ≤ t ∧ f k ≤ f (k + 1)) := by
    constructor
    · intro h k
      have stepk : ∀ k, t ≤ f k → t ≤ f (k + 1) ∧ f (k + 1) ≤ f k := by
        intro k hk
        by_cases hl : (records k).label = i
        · have := (change k).2 hl
          rwa [Between, min_eq_right hk, max_eq_left hk] at this
        · have : f (k + 1) = f k := (change k).1 hl
          rw [this]; exact ⟨hk, le_refl _⟩
      have hall : ∀ k, t ≤ f k := fun k => by
        induction k with
        | zero => exact h
        | succ k ih => exact (stepk k ih).1
      exact ⟨hall k, (stepk k (hall k)).2⟩
    · intro h k
      have stepk : ∀ k, f k ≤ t → f (k + 1) ≤ t ∧ f k ≤ f (k + 1) := by
        intro k hk
        by_cases hl : (records k).label = i
        · have := (change k).2 hl
          rw [Between, min_eq_left hk, max_eq_right hk] at this
          exact ⟨this.2, this.1⟩
        · have : f (k + 1) = f k := (change k).1 hl
          rw [this]; exact ⟨hk, le_refl _⟩
      have hall : ∀ k, f k ≤ t := fun k => by
        induction k with
        | zero => exact h
        | succ k ih => exact (stepk k ih).1
      exact ⟨hall k, (stepk k (hall k)).2⟩
  have hdir : Monotone f ∨ Antitone f := by
    rcases le_total t (f 0) with h | h
    · exact Or.inr (antitone_nat_of_succ_le fun k => (hmono.1 h k).2)
    · exact Or.inl (monotone_nat_of_le_succ fun k => (hmono.2 h k).2)
  obtain ⟨K, hK⟩ := settle f (fun k => ⟨_, rfl⟩) hdir
  have hf0 : f 0 = real (w.get i j 0) := by show real ((v 0).get i j 0) = _; rw [v0]
  refine ⟨K, f K, fun k hk => ⟨v k, v1 k, hK k hk⟩, ?_, ?_⟩
  · rw [← hf0]
    rcases le_total t (f 0) with h | h
    · rw [Between, min_eq_right h, max_eq_left h]
      exact ⟨(hmono.1 h K).1, antitone_nat_of_succ_le (fun k => (hmono.1 h k).2) (Nat.zero_le K)⟩
    · rw [Between, min_eq_left h, max_eq_right h]
      exact ⟨monotone_nat_of_le_succ (fun k => (hmono.2 h k).2) (Nat.zero_le K), (hmono.2 h K).1⟩
  · obtain ⟨k, k1, k2⟩ := hagain K
    obtain ⟨x, x1, -, -, -, x5⟩ := step_elements n m rate (v k) (records k) (v2 k) (hr k)
    rw [next k] at x1
    cases x1
    obtain ⟨p, g, e, g1, g2, -⟩ := x5 i j hi hj
    obtain ⟨q1, q2, q3⟩ := g2 k2.symm
    have h1 : f (k + 1) = f k := (hK (k + 1) (by omega)).trans (hK k k1).symm
    have h2 := at_rest rate _ _ p g hrate ((v2 k).2.2.2 i j hi hj) ((hr k).2.2.2.2 j hj) q1 q2 g1 q3 (by rw [← e]; exact h1)
    rw [ht k k2] at h2
    have h3 : real ((v k).get i j 0) = f K := hK k k1
    rw [h3] at h2
    rw [le_div_iff₀ hrate.2.1, mul_comm]
    exact h2

/-- A table with one label and one column. -/
def cell (x : F32) : Tensor F32 := ⟨1, 1, 1, fun _ _ _ => x⟩

/-- The table has one cell, with the given number. -/
def Holds (x : F32) (w : Option (Tensor F32)) : Prop := ∃ v, w = some v ∧ v.rows = 1 ∧ v.cols = 1 ∧ v.chans = 1 ∧ v.get 0 0 0 = x

/-- One step of a table with one cell. -/
theorem step_cell (rate x t : F32) (w : Tensor F32) (h1 : w.rows = 1) (h2 : w.cols = 1) (h3 : w.chans = 1) (hx : w.get 0 0 0 = x) :
    Holds (x - rate * ((0 + one * (one * (two * ((0 + one * x) - t)))) / one)) (step rate w (Labelled.record 1 ⟨0, cell t⟩)) := by
  have hp : predict w (oneHot 1 0) = some ⟨1, w.cols, 1, fun r c k => sumLoop 1 fun a => (oneHot 1 0).get r a k * w.get a c k⟩ := by
    show (matmul (oneHot 1 0) w).bind (FloatNetwork.predict [.activation .linear]) = _
    unfold matmul
    rw [if_neg (by rw [h1]; exact fun h => h rfl), if_neg (by rw [h3]; exact fun h => h rfl)]
    rfl
  obtain ⟨v, v1, v2, v3, v4, v5⟩ := step_formula 1 1 rate w ⟨0, cell t⟩ h1 h2 h3 Nat.one_pos rfl rfl rfl _ hp rfl h2 rfl
  refine ⟨v, v1, v2, v3, v4, ?_⟩
  rw [v5 0 0 (by decide) (by decide), ← hx]
  rfl

/-- A training with the same record again and again. -/
theorem repeated (rate t : F32) (P : F32 → F32) (hP : ∀ x, x - rate * ((0 + one * (one * (two * ((0 + one * x) - t)))) / one) = P x) (k : Nat) (x : F32)
    (w : Tensor F32) (h1 : w.rows = 1) (h2 : w.cols = 1) (h3 : w.chans = 1) (hx : w.get 0 0 0 = x) :
    Holds (P^[k] x) (train rate w (List.replicate k (Labelled.record 1 ⟨0, cell t⟩))) := by
  induction k generalizing w x with
  | zero => exact ⟨w, rfl, h1, h2, h3, hx⟩
  | succ k ih =>
    obtain ⟨v, v1, v2, v3, v4, v5⟩ := step_cell rate x t w h1 h2 h3 hx
    rw [hP] at v5
    rw [List.replicate_succ]
    show Holds _ ((step rate w _).bind _)
    rw [v1]
    exact ih (P x) v v2 v3 v4 v5

/-- What one record does to a single weight. -/
def pulled (rate t x : F32) : F32 := x - rate * ((0 + one * (one * (two * ((0 + one * x) - t)))) / one)

/-- `0.01f` -/
def cent : F32 := ⟨0x3C23D70A#32⟩

/-- 1 + 2^-19 -/
def above : F32 := ⟨0x3F800010#32⟩

/-- "The model learns what it is shown" holds only up to the distance above: with the learning rate 0.01 a weight of 1 never moves to an expected 1 + 2^-19,
however often it is shown. -/
theorem C139_reached_violated (k : Nat) :
    Holds one (train cent (cell one) (List.replicate k (Labelled.record 1 ⟨0, cell above⟩))) ∧ real one ≠ real above := by
  refine ⟨?_, ?_⟩
  · have h := repeated cent above (pulled cent above) (fun _ => rfl) k one (cell one) rfl rfl rfl rfl
    rwa [Function.iterate_fixed (show pulled cent above one = one by decide +kernel)] at h
  · intro h
    have := val_real _ _ h
    revert this
    decide +kernel

/-- With the learning rate 1 the weight jumps from 0 to 2 and back for ever when 1 is expected; it is never nearer than at the start. -/
theorem C139_rate_violated (k : Nat) :
    Holds 0 (train one (cell 0) (List.replicate (2 * k) (Labelled.record 1 ⟨0, cell one⟩))) ∧
      Holds two (train one (cell 0) (List.replicate (2 * k + 1) (Labelled.record 1 ⟨0, cell one⟩))) := by
  have h1 : pulled one one 0 = two := by decide +kernel
  have h2 : pulled one one two = 0 := by decide +kernel
  have e : (pulled one one)^[2 * k] 0 = 0 := by
    rw [Function.iterate_mul]
    exact Function.iterate_fixed (show (pulled one one)^[2] 0 = 0 by rw [Function.iterate_succ_apply, Function.iterate_one, h1, h2]) k
  have a := repeated one one (pulled one one) (fun _ => rfl) (2 * k) 0 (cell 0) rfl rfl rfl rfl
  have b := repeated one one (pulled one one) (fun _ => rfl) (2 * k + 1) 0 (cell 0) rfl rfl rfl rfl
  rw [Function.iterate_succ_apply', e, h1] at b
  rw [e] at a
  exact ⟨a, b⟩

/-! ### Examples -/

theorem cell_table (x : F32) (h : Small x) : Table 1 1 (cell x) := ⟨rfl, rfl, rfl, fun _ _ _ _ => h⟩

theorem small_of (x : F32) (hf : Rounding.Finite x) (h : x.units ≤ 2 ^ 239) : Small x := by
  refine ⟨hf, ?_⟩
  rw [abs_real, div_le_iff₀ (by positivity), ← pow_add]
  exact_mod_cast h

theorem moderate_cent : Moderate cent := by
  have hv : value cent.bits = 10737418 * 2 ^ 119 := by decide +kernel
  refine ⟨by decide, ?_, ?_⟩ <;> unfold real <;> rw [hv] <;> norm_num

/-- A table with two labels, and records of both. -/
def pair : Tensor F32 := ⟨2, 1, 1, fun r _ _ => if r = 0 then one else minusFive⟩

example : Moderate cent ∧ Table 2 1 pair ∧ Labelled.Ok 2 1 ⟨0, cell three⟩ ∧ Labelled.Ok 2 1 ⟨1, cell two⟩ := by
  refine ⟨moderate_cent, ⟨rfl, rfl, rfl, fun i j _ _ => ?_⟩, ⟨by decide, rfl, rfl, rfl, fun _ _ => ?_⟩, ⟨by decide, rfl, rfl, rfl, fun _ _ => ?_⟩⟩
  · show Small (if i = 0 then one else minusFive)
    split
    · exact small_of _ (by decide) (by decide +kernel)
    · exact small_of _ (by decide) (by decide +kernel)
  · exact small_of three (by decide) (by decide +kernel)
  · exact small_of two (by decide) (by decide +kernel)

/-- Label 1 with 2 expected for ever: the weight settles between 1 and 2. -/
example : ∃ K x, (∀ k, K ≤ k → ∃ v, after cent 1 (cell one) (fun _ => ⟨0, cell two⟩) k = some v ∧ real (v.get 0 0 0) = x) ∧
    |x - real two| ≤ (|x| / 2 ^ 23 + 1 / 2 ^ 148) / real cent := by
  obtain ⟨K, x, h1, -, h3⟩ := C139_settles 1 1 cent moderate_cent (cell one) (cell_table _ (small_of _ (by decide) (by decide +kernel))) (fun _ => ⟨0, cell two⟩)
    (fun _ => ⟨by decide, rfl, rfl, rfl, fun _ _ => small_of two (by decide) (by decide +kernel)⟩) 0 0 (by decide) (by decide) (real two)
    (fun _ _ => rfl) (fun K => ⟨K, le_refl _, rfl⟩)
  exact ⟨K, x, h1, h3⟩

/-- The first update from 1 towards 2 with the rate 0.01 ends at 1.02 (rounded). -/
example : Holds ⟨0x3F828F5C#32⟩ (step cent (cell one) (Labelled.record 1 ⟨0, cell two⟩)) := by
  have h := step_cell cent one two (cell one) rfl rfl rfl rfl
  have : one - cent * ((0 + one * (one * (two * ((0 + one * one) - two)))) / one) = ⟨0x3F828F5C#32⟩ := by decide +kernel
  rwa [this] at h

end Verif.FloatTable
