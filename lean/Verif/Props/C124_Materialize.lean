import Verif.Lemmas.Materialize

/-!
C124: what happens to a tensor that is stored again with the same number of bits per element, in memory or through a file.

* With 32 bits nothing is lost at all, with 16 bits nothing is lost after the first time.
* With 8 bits the second storing can change the numbers again, because the bias of the format is estimated from the numbers that are stored. It
changes nothing when no stored number is the largest of its format and the smallest code is not used (`C124_again_partial`), and the fourth storing never
changes anything (`C124_settles`).
-/
namespace Verif.Materialize
open Verif Verif.FloatBits Verif.FloatArith Verif.BinaryDataset Verif.QuarterFloat Verif.EstimateBias

/-! ### Helpers -/

theorem same_refl (t : Tensor (BitVec 32)) : Tensor.Same t t := ⟨rfl, rfl, rfl, fun _ _ _ _ _ _ => rfl⟩
theorem same_symm {s t : Tensor (BitVec 32)} (h : Tensor.Same s t) : Tensor.Same t s :=
  ⟨h.1.symm, h.2.1.symm, h.2.2.1.symm, fun r c k hr hc hk => (h.2.2.2 r c k (h.1 ▸ hr) (h.2.1 ▸ hc) (h.2.2.1 ▸ hk)).symm⟩
theorem same_trans {s t u : Tensor (BitVec 32)} (h : Tensor.Same s t) (g : Tensor.Same t u) : Tensor.Same s u :=
  ⟨h.1.trans g.1, h.2.1.trans g.2.1, h.2.2.1.trans g.2.2.1, fun r c k hr hc hk =>
    (h.2.2.2 r c k hr hc hk).trans (g.2.2.2 r c k (h.1 ▸ hr) (h.2.1 ▸ hc) (h.2.2.1 ▸ hk))⟩

/-- Storing with 8 bits, as a function of the elements. -/
def eight (t : Tensor (BitVec 32)) : Tensor (BitVec 32) := mapped (quarterConv (bias t)) t

theorem mapped_shape (f : BitVec 32 → BitVec 32) (t : Tensor (BitVec 32)) :
    (mapped f t).rows = t.rows ∧ (mapped f t).cols = t.cols ∧ (mapped f t).chans = t.chans := ⟨rfl, rfl, rfl⟩
theorem mapped_get (f : BitVec 32 → BitVec 32) (t : Tensor (BitVec 32)) (r c k : Nat) : (mapped f t).get r c k = f (t.get r c k) := rfl
theorem eight_shape (t : Tensor (BitVec 32)) : (eight t).rows = t.rows ∧ (eight t).cols = t.cols ∧ (eight t).chans = t.chans := mapped_shape _ t
theorem eight_get (t : Tensor (BitVec 32)) (r c k : Nat) : (eight t).get r c k = quarterConv (bias t) (t.get r c k) := mapped_get _ t r c k
theorem qc (x : BitVec 32) (k : Nat) : quarterConv (k : Int) x = roundTrip x k := rfl

theorem materialize8 (m : Bool) (t : Tensor (BitVec 32)) (hk : 0 < t.chans) (hr : 0 < t.rows) : Tensor.Same (materialize m t 8) (eight t) :=
  stored_same _ t hk hr

theorem eight_congr {s t : Tensor (BitVec 32)} (h : Tensor.Same s t) : Tensor.Same (eight s) (eight t) := by
  have hs := eight_shape s
  have ht := eight_shape t
  refine ⟨by rw [hs.1, ht.1, h.1], by rw [hs.2.1, ht.2.1, h.2.1], by rw [hs.2.2, ht.2.2, h.2.2.1], fun r c k hr hc hk => ?_⟩
  rw [hs.1] at hr
  rw [hs.2.1] at hc
  rw [hs.2.2] at hk
  rw [eight_get, eight_get, bias_congr h, h.2.2.2 r c k hr hc hk]

/-- Storing `n` times with 8 bits. -/
def times (m : Bool) (t : Tensor (BitVec 32)) : Nat → Tensor (BitVec 32)
  | 0 => t
  | n + 1 => materialize m (times m t n) 8

def eights (t : Tensor (BitVec 32)) : Nat → Tensor (BitVec 32)
  | 0 => t
  | n + 1 => eight (eights t n)

theorem eights_shape (t : Tensor (BitVec 32)) (n : Nat) : (eights t n).rows = t.rows ∧ (eights t n).cols = t.cols ∧ (eights t n).chans = t.chans := by
  induction n with
  | zero => exact ⟨rfl, rfl, rfl⟩
  | succ n ih =>
    have := eight_shape (eights t n)
    exact ⟨this.1.trans ih.1, this.2.1.trans ih.2.1, this.2.2.trans ih.2.2⟩

theorem times_same (m : Bool) (t : Tensor (BitVec 32)) (hk : 0 < t.chans) (hr : 0 < t.rows) : ∀ n, Tensor.Same (times m t n) (eights t n)
  | 0 => same_refl t
  | n + 1 => by
    have h := times_same m t hk hr n
    have hs := eights_shape t n
    exact same_trans (materialize8 m _ (by rw [h.2.2.1, hs.2.2]; exact hk) (by rw [h.1, hs.1]; exact hr)) (eight_congr h)

theorem finite_elements {t : Tensor (BitVec 32)} (h : Finite t) : ∀ x ∈ Statistics.elements t, isFinite x = true := by
  intro x hx
  obtain ⟨r, c, k, hr, hc, hk, rfl⟩ := mem_elements.mp hx
  exact h r c k hr hc hk

theorem elements_eight {t : Tensor (BitVec 32)} {x : BitVec 32} :
    x ∈ Statistics.elements (eight t) ↔ ∃ y ∈ Statistics.elements t, quarterConv (bias t) y = x := by
  rw [mem_elements, (eight_shape t).1, (eight_shape t).2.1, (eight_shape t).2.2]
  constructor
  · rintro ⟨r, c, k, hr, hc, hk, h⟩
    rw [eight_get] at h
    exact ⟨_, mem_elements.mpr ⟨r, c, k, hr, hc, hk, rfl⟩, h⟩
  · rintro ⟨y, hy, h⟩
    obtain ⟨r, c, k, hr, hc, hk, rfl⟩ := mem_elements.mp hy
    exact ⟨r, c, k, hr, hc, hk, by rw [eight_get]; exact h⟩

theorem finite_eight {t : Tensor (BitVec 32)} (h : Finite t) : Finite (eight t) := by
  obtain ⟨k, hk, h4, h15, _⟩ := bias_spec t (finite_elements h)
  intro r c j hr hc hj
  rw [(eight_shape t).1] at hr
  rw [(eight_shape t).2.1] at hc
  rw [(eight_shape t).2.2] at hj
  rw [eight_get, hk, qc]
  exact C05_finite _ k (by omega) h15 (h r c j hr hc hj)

theorem finite_eights {t : Tensor (BitVec 32)} (h : Finite t) : ∀ n, Finite (eights t n)
  | 0 => h
  | n + 1 => finite_eight (finite_eights h n)

/-- The second bias. -/
theorem bias_eight {t : Tensor (BitVec 32)} (h : Finite t) {k : Nat} (hk : bias t = k) :
    IsBias t k ∧ ((k = 4 ∨ Fits (eight t) k) → bias (eight t) = k) ∧ (k ≠ 4 → ¬ Fits (eight t) k → 5 ≤ k ∧ bias (eight t) = (k - 1 : Nat)) := by
  have he := finite_elements h
  obtain ⟨k', hk', hb⟩ := bias_spec t he
  obtain rfl : k' = k := by omega
  obtain ⟨k2, hk2, hb2⟩ := bias_spec (eight t) (finite_elements (finite_eight h))
  have h4 := hb.1
  have h15 := hb.2.1
  refine ⟨hb, ?_, ?_⟩
  · intro hf
    have : IsBias (eight t) k' := by
      refine ⟨hb.1, hb.2.1, ?_, hf⟩
      intro hlt hfit
      refine hb.2.2.1 hlt ?_
      intro x hx
      by_contra hc
      have h1 := (mag_roundTrip x k' (by omega) h15 (he x hx)).2.1 (by omega)
      have h2 := hfit (quarterConv (bias t) x) (elements_eight.mpr ⟨x, hx, rfl⟩)
      rw [hk, qc] at h2
      omega
    rw [hk2, this.unique hb2]
  · intro hk4 hf
    have h5 : 5 ≤ k' := by omega
    refine ⟨h5, ?_⟩
    have : IsBias (eight t) (k' - 1) := by
      refine ⟨by omega, by omega, ?_, Or.inr ?_⟩
      · intro _
        rwa [Nat.sub_add_cancel (by omega)]
      · intro y hy
        obtain ⟨x, hx, rfl⟩ := elements_eight.mp hy
        rw [hk]
        have h1 := (mag_roundTrip x k' (by omega) h15 (he x hx)).1
        have h2 := top_anti (j := k' - 1) (k := k') (by omega) h15
        rw [qc]; omega
    rw [hk2, this.unique hb2]

/-- Storing one number twice with the same bias. -/
theorem again (x : BitVec 32) (b : Nat) (hb1 : 1 ≤ b) (hb : b ≤ 15) (h : b ≤ 11 ∨ floatToQuarter x b ≠ 0x80#8) :
    roundTrip (roundTrip x b) b = roundTrip x b := by
  have : floatToQuarter (roundTrip x b) b = floatToQuarter x b :=
    (C03_code_iff_partial _ b hb1 hb).mpr ⟨encode_not_reserved x b hb1 hb, fun hq => h.resolve_right (fun hn => hn hq)⟩
  unfold roundTrip at this ⊢
  rw [this]

theorem again_zero : ∀ b : Fin 16, 12 ≤ b.val → roundTrip (quarterToFloat 0x80#8 (b.val : Int)) b.val = 0#32 := by decide +kernel

/-- Storing one number twice with the same bias gives what it gave or zero. -/
theorem again_or (x : BitVec 32) (b : Nat) (hb1 : 1 ≤ b) (hb : b ≤ 15) :
    roundTrip (roundTrip x b) b = roundTrip x b ∨ roundTrip (roundTrip x b) b = 0#32 := by
  by_cases h : b ≤ 11 ∨ floatToQuarter x b ≠ 0x80#8
  · exact Or.inl (again x b hb1 hb h)
  · rw [not_or, not_not] at h
    right
    have := again_zero ⟨b, by omega⟩ (by show 12 ≤ b; omega)
    unfold roundTrip at this ⊢
    rw [h.2]
    exact this

theorem zero_again (b : Nat) (hb1 : 1 ≤ b) (hb : b ≤ 15) : roundTrip 0#32 b = 0#32 := (C05_specials b hb1 hb).2.2.2.2

theorem thrice (x : BitVec 32) (b : Nat) (hb1 : 1 ≤ b) (hb : b ≤ 15) :
    roundTrip (roundTrip (roundTrip x b) b) b = roundTrip (roundTrip x b) b := by
  rcases again_or x b hb1 hb with h | h
  · rw [h, h]
  · rw [h, zero_again b hb1 hb]

/-- From the second storing on the bias stays. -/
theorem bias_stays {t : Tensor (BitVec 32)} (h : Finite t) : bias (eight (eight t)) = bias (eight t) := by
  obtain ⟨k, hk, _⟩ := bias_spec t (finite_elements h)
  obtain ⟨hb, h1, h2⟩ := bias_eight h hk
  have he := finite_elements h
  have h4 := hb.1
  have h15 := hb.2.1
  have hzero : ∀ j, j ≤ 15 → mag 0#32 < top j := by
    intro j hj; have : mag 0#32 = 0 := by decide
    rw [this]; unfold top; omega
  by_cases hf : k = 4 ∨ Fits (eight t) k
  · have hk2 := h1 hf
    obtain ⟨_, g1, _⟩ := bias_eight (finite_eight h) hk2
    rw [hk2]
    apply g1
    refine hf.imp_right fun hf => ?_
    intro z hz
    obtain ⟨y, hy, rfl⟩ := elements_eight.mp hz
    have hy' := hf y hy
    obtain ⟨x, hx, rfl⟩ := elements_eight.mp hy
    rw [hk2]
    rw [hk, qc] at hy'
    rw [hk, qc, qc]
    rcases again_or x k (by omega) h15 with e | e
    · rw [e]; exact hy'
    · rw [e]; exact hzero k h15
  · rw [not_or] at hf
    obtain ⟨h5, hk2⟩ := h2 hf.1 hf.2
    obtain ⟨_, g1, _⟩ := bias_eight (finite_eight h) hk2
    rw [hk2]
    apply g1
    right
    intro z hz
    obtain ⟨y, hy, rfl⟩ := elements_eight.mp hz
    have hfy := finite_elements (finite_eight h) y hy
    obtain ⟨x, hx, rfl⟩ := elements_eight.mp hy
    rw [hk2, qc]
    have m1 : mag (quarterConv (bias t) x) ≤ top k := by
      rw [hk, qc]; exact (mag_roundTrip x k (by omega) h15 (he x hx)).1
    have m2 := (mag_roundTrip (quarterConv (bias t) x) (k - 1) (by omega) (by omega) hfy).2.2
    rw [Nat.sub_add_cancel (by omega)] at m2
    have m3 := m2 m1
    have m4 := top_anti (j := k - 1) (k := k) (by omega) h15
    omega

/-! ### 32 and 16 bits -/

/-- With 32 bits a tensor is stored as it is. -/
theorem C124_full (m : Bool) (t : Tensor (BitVec 32)) (hk : 0 < t.chans) (hr : 0 < t.rows) : Tensor.Same (materialize m t 32) t := by
  unfold materialize
  simp only [if_true]
  split
  · exact same_refl t
  · exact stored_same id t hk hr

theorem half_again (x : BitVec 32) (h : isNaN x = false) : halfConv (halfConv x) = halfConv x := by
  have h3 : isNaN (halfConv x) = false := (HalfFloat.C02_nan x).trans h
  unfold halfConv at h3 ⊢
  rw [HalfFloat.C02_exact _ h3]

/-- Storing with 16 bits a second time changes no number, and what is not a number stays that. -/
theorem C124_half (m m' : Bool) (t : Tensor (BitVec 32)) (hk : 0 < t.chans) (hr : 0 < t.rows) :
    (materialize m' (materialize m t 16) 16).rows = t.rows ∧ (materialize m' (materialize m t 16) 16).cols = t.cols ∧
    (materialize m' (materialize m t 16) 16).chans = t.chans ∧
    ∀ r c k, r < t.rows → c < t.cols → k < t.chans →
      isNaN ((materialize m' (materialize m t 16) 16).get r c k) = isNaN (t.get r c k) ∧
      (isNaN (t.get r c k) = false → (materialize m' (materialize m t 16) 16).get r c k = (materialize m t 16).get r c k) := by
  have h1 : Tensor.Same (materialize m t 16) (mapped halfConv t) := stored_same _ t hk hr
  have h2 : Tensor.Same (materialize m' (materialize m t 16) 16) (mapped halfConv (materialize m t 16)) :=
    stored_same _ _ (by rw [h1.2.2.1, (mapped_shape _ _).2.2]; exact hk) (by rw [h1.1, (mapped_shape _ _).1]; exact hr)
  have s1 := mapped_shape halfConv t
  have s2 := mapped_shape halfConv (materialize m t 16)
  unfold Tensor.Same at h1 h2
  rw [s1.1, s1.2.1, s1.2.2] at h1
  rw [s2.1, s2.2.1, s2.2.2] at h2
  simp only [mapped_get] at h1 h2
  refine ⟨h2.1.trans h1.1, h2.2.1.trans h1.2.1, h2.2.2.1.trans h1.2.2.1, fun r c k hr hc hk => ?_⟩
  have e1 : (materialize m t 16).get r c k = halfConv (t.get r c k) :=
    h1.2.2.2 r c k (by rw [h1.1]; exact hr) (by rw [h1.2.1]; exact hc) (by rw [h1.2.2.1]; exact hk)
  have e2 : (materialize m' (materialize m t 16) 16).get r c k = halfConv (halfConv (t.get r c k)) := by
    rw [← e1]
    exact h2.2.2.2 r c k (by rw [h2.1, h1.1]; exact hr) (by rw [h2.2.1, h1.2.1]; exact hc) (by rw [h2.2.2.1, h1.2.2.1]; exact hk)
  rw [e1, e2]
  exact ⟨(HalfFloat.C02_nan _).trans (HalfFloat.C02_nan _), half_again _⟩

/-! ### 8 bits -/

/-- The bias of the second storing. It is that of the first one, `k`, unless a stored number is one of the two largest numbers with bias `k`, ±15·2^(11-k)
(`15 * 2^(160-k)` in units of 2^-149): then the second storing uses the next smaller bias, unless `k` is already the smallest. -/
theorem C124_bias (m : Bool) (t : Tensor (BitVec 32)) (hk : 0 < t.chans) (hr : 0 < t.rows) (h : Finite t) :
    ∃ k : Nat, bias t = k ∧ 4 ≤ k ∧ k ≤ 15 ∧
      ((k = 4 ∨ ∀ r c j, r < t.rows → c < t.cols → j < t.chans → (value ((materialize m t 8).get r c j)).natAbs ≠ 15 * 2 ^ (160 - k)) →
        bias (materialize m t 8) = k) ∧
      (¬ (k = 4 ∨ ∀ r c j, r < t.rows → c < t.cols → j < t.chans → (value ((materialize m t 8).get r c j)).natAbs ≠ 15 * 2 ^ (160 - k)) →
        bias (materialize m t 8) = k - 1) := by
  obtain ⟨k, hbk, _⟩ := bias_spec t (finite_elements h)
  obtain ⟨hb, h1, h2⟩ := bias_eight h hbk
  have hs := materialize8 m t hk hr
  have hsg : ∀ r c j, r < t.rows → c < t.cols → j < t.chans → (materialize m t 8).get r c j = quarterConv (bias t) (t.get r c j) := by
    intro r c j hr' hc' hj'
    rw [hs.2.2.2 r c j (by rw [hs.1, (eight_shape t).1]; exact hr') (by rw [hs.2.1, (eight_shape t).2.1]; exact hc')
      (by rw [hs.2.2.1, (eight_shape t).2.2]; exact hj'), eight_get]
  refine ⟨k, hbk, hb.1, hb.2.1, ?_⟩
  have h4 := hb.1
  have h15 := hb.2.1
  have key : Fits (eight t) k ↔ ∀ r c j, r < t.rows → c < t.cols → j < t.chans → (value ((materialize m t 8).get r c j)).natAbs ≠ 15 * 2 ^ (160 - k) := by
    have hle : ∀ x, isFinite x = true → (mag (quarterConv (bias t) x) < top k ↔ (value (quarterConv (bias t) x)).natAbs ≠ 15 * 2 ^ (160 - k)) := by
      intro x hx
      rw [hbk, qc]
      have h1 := (mag_roundTrip x k (by omega) h15 hx).1
      rw [natAbs_value, ← magOf_top k h15]
      have e1 : magOf (top k) ≤ magOf (mag (roundTrip x k)) ↔ _ := magOf_le_iff
      have e2 : magOf (mag (roundTrip x k)) ≤ magOf (top k) ↔ _ := magOf_le_iff
      generalize magOf (top k) = A at *
      generalize magOf (mag (roundTrip x k)) = B at *
      omega
    constructor
    · intro hf r c j hr' hc' hj'
      rw [hsg r c j hr' hc' hj']
      refine (hle _ (h r c j hr' hc' hj')).mp ?_
      exact hf _ (elements_eight.mpr ⟨_, mem_elements.mpr ⟨r, c, j, hr', hc', hj', rfl⟩, rfl⟩)
    · intro hf y hy
      obtain ⟨x, hx, rfl⟩ := elements_eight.mp hy
      obtain ⟨r, c, j, hr', hc', hj', rfl⟩ := mem_elements.mp hx
      refine (hle _ (h r c j hr' hc' hj')).mpr ?_
      have := hf r c j hr' hc' hj'
      rwa [hsg r c j hr' hc' hj'] at this
  rw [bias_congr hs, ← key]
  refine ⟨h1, fun hn => ?_⟩
  rw [not_or] at hn
  obtain ⟨h5, h6⟩ := h2 hn.1 hn.2
  rw [h6]; omega

/-- Storing with 8 bits a second time changes nothing if no stored number is one of the two largest numbers of the format (or the bias is the smallest one, 4) and
the smallest code is not used (or the bias is at most 11). -/
theorem C124_again_partial (m m' : Bool) (t : Tensor (BitVec 32)) (hk : 0 < t.chans) (hr : 0 < t.rows) (h : Finite t)
    (hmax : bias t = 4 ∨ ∀ r c j, r < t.rows → c < t.cols → j < t.chans → (value ((materialize m t 8).get r c j)).natAbs ≠ 15 * 2 ^ (160 - (bias t).toNat))
    (hmin : bias t ≤ 11 ∨ ∀ r c j, r < t.rows → c < t.cols → j < t.chans → floatToQuarter (t.get r c j) (bias t) ≠ 0x80#8) :
    Tensor.Same (materialize m' (materialize m t 8) 8) (materialize m t 8) := by
  obtain ⟨k, hbk, h4, h15, h1, _⟩ := C124_bias m t hk hr h
  have hs := materialize8 m t hk hr
  have hb2 : bias (materialize m t 8) = k := by
    apply h1
    rcases hmax with hm | hm
    · left; omega
    · right; rw [hbk] at hm; exact hm
  have s1 := eight_shape t
  have s2 := eight_shape (materialize m t 8)
  refine same_trans (materialize8 m' _ (by rw [hs.2.2.1, s1.2.2]; exact hk) (by rw [hs.1, s1.1]; exact hr))
    ⟨s2.1, s2.2.1, s2.2.2, fun r c j hr' hc' hj' => ?_⟩
  rw [s2.1] at hr'
  rw [s2.2.1] at hc'
  rw [s2.2.2] at hj'
  rw [eight_get, hb2, hs.2.2.2 r c j hr' hc' hj', eight_get, hbk, qc, qc]
  refine again (t.get r c j) k (by omega) h15 ?_
  rcases hmin with hm | hm
  · left; omega
  · right
    have := hm r c j (by rw [← s1.1, ← hs.1]; exact hr') (by rw [← s1.2.1, ← hs.2.1]; exact hc') (by rw [← s1.2.2, ← hs.2.2.1]; exact hj')
    rwa [hbk] at this

/-- The fourth storing and all later ones change nothing, and neither does the third one if the first bias is at most 11. -/
theorem C124_settles (m : Bool) (t : Tensor (BitVec 32)) (hk : 0 < t.chans) (hr : 0 < t.rows) (h : Finite t) :
    (∀ n, Tensor.Same (times m t (n + 3)) (times m t 3)) ∧ (bias t ≤ 11 → ∀ n, Tensor.Same (times m t (n + 2)) (times m t 2)) := by
  have hb : ∀ n, bias (eights t (n + 2)) = bias (eights t (n + 1)) := fun n => bias_stays (finite_eights h n)
  have hb1 : ∀ n, bias (eights t (n + 1)) = bias (eights t 1) := by
    intro n; induction n with
    | zero => rfl
    | succ n ih => rw [hb n, ih]
  obtain ⟨k, hbk, _⟩ := bias_spec t (finite_elements h)
  obtain ⟨hbt, c1, c2⟩ := bias_eight h hbk
  obtain ⟨j, hj, hbj⟩ := bias_spec (eight t) (finite_elements (finite_eight h))
  have hj1 : bias (eights t 1) = j := hj
  have hjk : j ≤ k := by
    by_cases hf : k = 4 ∨ Fits (eight t) k
    · have := c1 hf; omega
    · rw [not_or] at hf
      have := (c2 hf.1 hf.2).2; omega
  have h4 := hbj.1
  have h15 := hbj.2.1
  have step : ∀ n r c i, (eights t (n + 2)).get r c i = roundTrip ((eights t (n + 1)).get r c i) j := by
    intro n r c i
    rw [eights, eight_get, hb1 n, hj1, qc]
  have shape := eights_shape t
  have hsame : ∀ a b, (∀ r c i, (eights t a).get r c i = (eights t b).get r c i) → Tensor.Same (times m t a) (times m t b) := by
    intro a b hab
    refine same_trans (times_same m t hk hr a) (same_trans ?_ (same_symm (times_same m t hk hr b)))
    exact ⟨by rw [(shape a).1, (shape b).1], by rw [(shape a).2.1, (shape b).2.1], by rw [(shape a).2.2, (shape b).2.2],
      fun r c i _ _ _ => hab r c i⟩
  constructor
  · intro n
    apply hsame
    intro r c i
    induction n with
    | zero => rfl
    | succ n ih =>
      rw [show n + 1 + 3 = (n + 2) + 2 from rfl, step, show n + 2 + 1 = n + 3 from rfl, ih]
      rw [show (3 : Nat) = 1 + 2 from rfl, step 1 r c i, show 1 + 1 = 0 + 2 from rfl, step 0 r c i]
      exact thrice _ j (by omega) h15
  · intro hle n
    apply hsame
    intro r c i
    induction n with
    | zero => rfl
    | succ n ih =>
      rw [show n + 1 + 2 = (n + 1) + 2 from rfl, step, show n + 1 + 1 = n + 2 from rfl, ih]
      rw [show (2 : Nat) = 0 + 2 from rfl, step 0 r c i]
      exact again _ j (by omega) h15 (Or.inl (by omega))

/-! ### Files -/

theorem load_save (conv : BitVec 32 → BitVec 32) (t : Tensor (BitVec 32)) (h1 : t.chans < 2 ^ 64) (h2 : t.rows < 2 ^ 64) (h3 : t.cols < 2 ^ 64) :
    load conv (save t) = some (stored conv t, []) := by
  have := reads_save conv t h1 h2 h3 []
  rwa [List.append_nil] at this

/-- A file made by `save` loads with 32 bits as it was saved. -/
theorem C124_load_full (t : Tensor (BitVec 32)) (hk : 0 < t.chans) (hr : 0 < t.rows) (h1 : t.chans < 2 ^ 64) (h2 : t.rows < 2 ^ 64) (h3 : t.cols < 2 ^ 64) :
    ∃ u, loadTensor 32 (save t) = some u ∧ Tensor.Same u t :=
  ⟨(stored id t).tensor, by simp [loadTensor, load_save id t h1 h2 h3], stored_same id t hk hr⟩

/-- A file made by `save` loads with 16 bits as the same tensor stored with 16 bits in memory. -/
theorem C124_load_half (m : Bool) (t : Tensor (BitVec 32)) (h1 : t.chans < 2 ^ 64) (h2 : t.rows < 2 ^ 64) (h3 : t.cols < 2 ^ 64) :
    loadTensor 16 (save t) = some (materialize m t 16) := by
  simp [loadTensor, load_save halfConv t h1 h2 h3, materialize]

/-- For the codes of numbers, decoded with bias `k`: what 16 bits keep of the number is the number itself, except for the smallest code; that one is cut to a number
that every bias stores as the same code. -/
theorem half_code : ∀ k : Fin 16, 4 ≤ k.val → ∀ q : Fin 256, q.val ≠ 255 → q.val ≠ 0x78 → q.val ≠ 0xF8 → q.val / 8 % 16 ≠ 15 →
    (halfConv (quarterToFloat (BitVec.ofNat 8 q.val) (k.val : Int)) = quarterToFloat (BitVec.ofNat 8 q.val) (k.val : Int) ∨
      (q.val = 128 ∧ ∀ j : Fin 16, 4 ≤ j.val →
        mag (quarterToFloat (BitVec.ofNat 8 q.val) (k.val : Int)) < top j.val ∧ mag (halfConv (quarterToFloat (BitVec.ofNat 8 q.val) (k.val : Int))) < top j.val ∧
        quarterConv (j.val : Int) (halfConv (quarterToFloat (BitVec.ofNat 8 q.val) (k.val : Int))) =
          quarterConv (j.val : Int) (quarterToFloat (BitVec.ofNat 8 q.val) (k.val : Int)))) := by
  decide +kernel

theorem half_number (x : BitVec 32) (k : Nat) (h4 : 4 ≤ k) (h15 : k ≤ 15) (hx : isFinite x = true) :
    halfConv (roundTrip x k) = roundTrip x k ∨
      ∀ j : Nat, 4 ≤ j → j ≤ 15 → mag (roundTrip x k) < top j ∧ mag (halfConv (roundTrip x k)) < top j ∧
        quarterConv (j : Int) (halfConv (roundTrip x k)) = quarterConv (j : Int) (roundTrip x k) := by
  obtain ⟨_, _, hf, _, hs⟩ := fields x
  have he := encode_finite x k (by omega) h15 hx
  have hc := encN_cases k (x ≠ 0) (sgn x) (expo x) (frac x) hs hf (by omega) h15
  have hr := rnd_le _ hf
  obtain ⟨h0, h1, h2, h3⟩ := encN_not_special k (x ≠ 0) (sgn x) (expo x) (frac x) (by omega) h15 hs hf
  rw [← he] at h0 h1 h2 h3 hc
  have h5 : (floatToQuarter x k).toNat / 8 % 16 ≠ 15 := by
    generalize (floatToQuarter x k).toNat = q at *
    omega
  have := half_code ⟨k, by omega⟩ h4 ⟨(floatToQuarter x k).toNat, h0⟩ h1 h2 h3 h5
  simp only [BitVec.ofNat_toNat, BitVec.setWidth_eq] at this
  rcases this with h | ⟨_, h⟩
  · exact Or.inl h
  · exact Or.inr fun j hj4 hj15 => h ⟨j, by omega⟩ hj4

/-- A file made by `save` from a tensor that was stored with 8 bits loads with 8 bits as that tensor stored once more with 8 bits in memory: going through 16 bits
on the way, as `loadTensor` does, makes no difference. -/
theorem C124_load_quarter (m m' : Bool) (t : Tensor (BitVec 32)) (hk : 0 < t.chans) (hr : 0 < t.rows) (h1 : t.chans < 2 ^ 64) (h2 : t.rows < 2 ^ 64)
    (h3 : t.cols < 2 ^ 64) (h : Finite t) :
    ∃ u, loadTensor 8 (save (materialize m t 8)) = some u ∧ Tensor.Same u (materialize m' (materialize m t 8) 8) := by
  have hs := materialize8 m t hk hr
  have s1 := eight_shape t
  have c1 : (materialize m t 8).chans = t.chans := by rw [hs.2.2.1, s1.2.2]
  have c2 : (materialize m t 8).rows = t.rows := by rw [hs.1, s1.1]
  have c3 : (materialize m t 8).cols = t.cols := by rw [hs.2.1, s1.2.1]
  refine ⟨materialize true (stored halfConv (materialize m t 8)).tensor 8, ?_, ?_⟩
  · simp [loadTensor, load_save halfConv (materialize m t 8) (by rw [c1]; exact h1) (by rw [c2]; exact h2) (by rw [c3]; exact h3)]
  have hh : Tensor.Same (stored halfConv (materialize m t 8)).tensor (mapped halfConv (eight t)) := by
    refine same_trans (stored_same halfConv _ (by rw [c1]; exact hk) (by rw [c2]; exact hr)) ?_
    have a := mapped_shape halfConv (materialize m t 8)
    have b := mapped_shape halfConv (eight t)
    refine ⟨by rw [a.1, b.1, hs.1], by rw [a.2.1, b.2.1, hs.2.1], by rw [a.2.2, b.2.2, hs.2.2.1], fun r c j hr' hc' hj' => ?_⟩
    rw [a.1] at hr'
    rw [a.2.1] at hc'
    rw [a.2.2] at hj'
    rw [mapped_get, mapped_get, hs.2.2.2 r c j hr' hc' hj']
  have sh := mapped_shape halfConv (eight t)
  have d1 : (stored halfConv (materialize m t 8)).tensor.chans = t.chans := by rw [hh.2.2.1, sh.2.2, s1.2.2]
  have d2 : (stored halfConv (materialize m t 8)).tensor.rows = t.rows := by rw [hh.1, sh.1, s1.1]
  refine same_trans (materialize8 true _ (by rw [d1]; exact hk) (by rw [d2]; exact hr)) (same_trans (eight_congr hh) ?_)
  refine same_symm (same_trans (materialize8 m' _ (by rw [c1]; exact hk) (by rw [c2]; exact hr)) (same_trans (eight_congr hs) (same_symm ?_)))
  obtain ⟨k, hbk, hb⟩ := bias_spec t (finite_elements h)
  have h4 := hb.1
  have h15 := hb.2.1
  have hel : ∀ y ∈ Statistics.elements (eight t), halfConv y = y ∨ ∀ j : Nat, 4 ≤ j → j ≤ 15 → mag y < top j ∧ mag (halfConv y) < top j ∧
      quarterConv (j : Int) (halfConv y) = quarterConv (j : Int) y := by
    intro y hy
    obtain ⟨x, hx, rfl⟩ := elements_eight.mp hy
    rw [hbk, qc]
    exact half_number x k h4 h15 (finite_elements h x hx)
  have hmem : ∀ y, y ∈ Statistics.elements (mapped halfConv (eight t)) ↔ ∃ z ∈ Statistics.elements (eight t), halfConv z = y := by
    intro y
    rw [mem_elements, sh.1, sh.2.1, sh.2.2]
    constructor
    · rintro ⟨r, c, j, hr', hc', hj', e⟩
      rw [mapped_get] at e
      exact ⟨_, mem_elements.mpr ⟨r, c, j, hr', hc', hj', rfl⟩, e⟩
    · rintro ⟨z, hz, e⟩
      obtain ⟨r, c, j, hr', hc', hj', rfl⟩ := mem_elements.mp hz
      exact ⟨r, c, j, hr', hc', hj', by rw [mapped_get]; exact e⟩
  have hfit : ∀ j : Nat, 4 ≤ j → j ≤ 15 → (Fits (mapped halfConv (eight t)) j ↔ Fits (eight t) j) := by
    intro j j4 j15
    constructor
    · intro hf y hy
      rcases hel y hy with e | e
      · rw [← e]; exact hf _ ((hmem _).mpr ⟨y, hy, rfl⟩)
      · exact (e j j4 j15).1
    · intro hf y hy
      obtain ⟨z, hz, rfl⟩ := (hmem y).mp hy
      rcases hel z hz with e | e
      · rw [e]; exact hf _ hz
      · exact (e j j4 j15).2.1
  have hfin : ∀ y ∈ Statistics.elements (mapped halfConv (eight t)), isFinite y = true := by
    intro y hy
    obtain ⟨z, hz, rfl⟩ := (hmem y).mp hy
    exact HalfFloat.C02_finite z (finite_elements (finite_eight h) z hz)
  obtain ⟨j1, e1, b1⟩ := bias_spec _ hfin
  obtain ⟨j2, e2, b2⟩ := bias_spec _ (finite_elements (finite_eight h))
  have b3 : IsBias (mapped halfConv (eight t)) j2 := by
    obtain ⟨p1, p2, p3, p4⟩ := b2
    refine ⟨p1, p2, fun hlt => ?_, ?_⟩
    · rw [hfit (j2 + 1) (by omega) (by omega)]; exact p3 hlt
    · rw [hfit j2 p1 p2]; exact p4
  obtain rfl : j1 = j2 := b1.unique b3
  have a := eight_shape (mapped halfConv (eight t))
  have b := eight_shape (eight t)
  refine ⟨by rw [a.1, b.1, sh.1], by rw [a.2.1, b.2.1, sh.2.1], by rw [a.2.2, b.2.2, sh.2.2], fun r c j hr' hc' hj' => ?_⟩
  rw [a.1, sh.1] at hr'
  rw [a.2.1, sh.2.1] at hc'
  rw [a.2.2, sh.2.2] at hj'
  rw [eight_get, eight_get, e1, e2, mapped_get]
  rcases hel _ (mem_elements.mpr ⟨r, c, j, hr', hc', hj', rfl⟩) with e | e
  · rw [e]
  · exact (e j1 b1.1 b1.2.1).2.2

/-! ### What 8 bits do not keep -/

/-- A tensor with one row. -/
def row (l : List (BitVec 32)) : Tensor (BitVec 32) := ⟨1, l.length, 1, fun _ c _ => l.getD c 0#32⟩

/-- 1.8125 and 1.5·2^-14: the first storing uses bias 14 and rounds 1.8125 to 1.875, the largest number with that bias. So the second storing uses bias 13, for which
1.5·2^-14 is too small: it becomes zero, and its negative becomes positive. -/
theorem C124_violated :
    (Statistics.elements (times true (row [0x3FE80000#32, 0x38C00000#32, 0xB8C00000#32]) 1) = [0x3FF00000#32, 0x38C00000#32, 0xB8C00000#32]) ∧
    (Statistics.elements (times true (row [0x3FE80000#32, 0x38C00000#32, 0xB8C00000#32]) 2) = [0x3FF00000#32, 0x00000000#32, 0x38800002#32]) := by
  decide +kernel

/-- -2^-20 is stored as a positive number a little above 2^-16, the second storing makes it zero. -/
theorem C124_tiny_violated :
    (Statistics.elements (times true (row [0xB5800000#32]) 1) = [0x37800002#32]) ∧ (Statistics.elements (times true (row [0xB5800000#32]) 2) = [0#32]) := by
  decide +kernel

/-- What is not a number and was stored with 8 bits becomes a number when it is saved and loaded again with 8 bits. -/
theorem C124_nan_violated :
    isNaN ((times true (row [0x7FC00000#32]) 1).get 0 0 0) = true ∧
    (loadTensor 8 (save (times true (row [0x7FC00000#32]) 1))).map (fun u => isFinite (u.get 0 0 0)) = some true := by
  decide +kernel

/-- A tensor that meets the hypotheses of `C124_again_partial` with a bias above 11 (and those of `C124_settles` and `C124_load_quarter`); 3.14 is rounded. -/
example : Tensor.Same (materialize true (materialize false (row [0x3F800000#32, 0x40490FDB#32, 0xBE99999A#32]) 8) 8)
    (materialize false (row [0x3F800000#32, 0x40490FDB#32, 0xBE99999A#32]) 8) := by
  have hcases : ∀ r c j, r < 1 → c < 3 → j < 1 → r = 0 ∧ (c = 0 ∨ c = 1 ∨ c = 2) ∧ j = 0 := by intro r c j; omega
  refine C124_again_partial false true _ (by decide) (by decide) ?_ (Or.inr ?_) (Or.inr ?_) <;>
    (intro r c j hr hc hj
     obtain ⟨rfl, rfl | rfl | rfl, rfl⟩ := hcases r c j hr hc hj <;> decide +kernel)

example : bias (row [0x3F800000#32, 0x40490FDB#32, 0xBE99999A#32]) = 13 ∧
    Statistics.elements (times true (row [0x3F800000#32, 0x40490FDB#32, 0xBE99999A#32]) 1) = [0x3F800000#32, 0x40500000#32, 0xBEA00000#32] := by
  decide +kernel

/-- The third storing can still change something: -1.5·2^-14 next to a number that lowers the bias. -/
example : (List.range 4).map (fun n => Statistics.elements (times true (row [0x3FE80000#32, 0xB8C00000#32]) n)) =
    [[0x3FE80000#32, 0xB8C00000#32], [0x3FF00000#32, 0xB8C00000#32], [0x3FF00000#32, 0x38800002#32], [0x3FF00000#32, 0#32]] := by
  decide +kernel

end Verif.Materialize
