import Verif.Model.Embedding
import Verif.Props.C10_C12_Bpe
import Verif.Props.C13_C14_Tokenizer
import Verif.Props.C22_C23_OneHot
import Mathlib.Analysis.Complex.ExponentialBounds
import Mathlib.Analysis.SpecialFunctions.Trigonometric.Bounds
import Mathlib.Analysis.Real.Pi.Bounds

/-!
C115: embedding tokens gives the promised shape, and every token is moved by the encoding of its position.
C116: the embedding of a one-hot token tells which token it is and at which position it stands.
C117: the embedding of a text tells which text it is.
-/

namespace Verif.Embedding
open Verif.Encoders (Out)
open Real

/-! ### Specification -/

/-- The encoding of a position: sines at even indices, cosines at odd ones, with frequencies that decrease along the indices. -/
noncomputable def encoding (position i : Nat) : ℝ :=
  if i % 2 = 0 then sin (position * sin (exp (-(i / log 10000)))) else cos (position * cos (exp (-((i - 1 : Nat) / log 10000))))

/-! ### The table -/

theorem getD_pairs (f g : Nat → ℝ) (n i : Nat) (h : i < 2 * n) :
    ((List.range n).flatMap fun h => [f h, g h]).getD i 0 = if i % 2 = 0 then f (i / 2) else g (i / 2) := by
  induction n with
  | zero => omega
  | succ n ih =>
    have hl : ((List.range n).flatMap fun h => [f h, g h]).length = 2 * n := by
      rw [List.length_flatMap]
      simp
      omega
    rw [List.range_succ, List.flatMap_append]
    by_cases hi : i < 2 * n
    · rw [List.getD_eq_getElem?_getD, List.getElem?_append_left (by omega), ← List.getD_eq_getElem?_getD, ih hi]
    · rw [List.getD_eq_getElem?_getD, List.getElem?_append_right (by omega), hl]
      simp only [List.flatMap_cons, List.flatMap_nil, List.append_nil]
      rcases (by omega : i = 2 * n ∨ i = 2 * n + 1) with rfl | rfl
      · simp
      · rw [show 2 * n + 1 - 2 * n = 1 by omega, if_neg (by omega), show (2 * n + 1) / 2 = n by omega]
        rfl

theorem exp_inv (x : ℝ) : 1 / exp (x * (1 / log 10000)) = exp (-(x / log 10000)) := by
  rw [mul_one_div, exp_neg, one_div]

/-- The table holds the encodings. -/
theorem positional_entry (e : Embedder) (p i : Nat) (hp : p < e.seq) (hi : i < e.dim) : ((positional e).getD p []).getD i 0 = encoding p i := by
  have hd : i < 2 * (evenDim e.dim / 2) := by unfold evenDim; omega
  unfold positional
  rw [List.getD_eq_getElem?_getD (l := List.map _ _), List.getElem?_map, List.getElem?_range hp]
  simp only [Option.map_some, Option.getD_some]
  rw [getD_pairs _ _ _ _ hd]
  unfold encoding constants
  by_cases he : i % 2 = 0
  · have h2 : 2 * (i / 2) = i := by omega
    rw [if_pos he, if_pos he, getD_pairs _ _ _ _ (by omega), if_pos (by omega), show 2 * (i / 2) / 2 = i / 2 by omega, h2, exp_inv]
  · have h2 : 2 * (i / 2) = i - 1 := by omega
    rw [if_neg he, if_neg he, getD_pairs _ _ _ _ (by omega), if_neg (by omega), show (2 * (i / 2) + 1) / 2 = i / 2 by omega, h2, exp_inv]

/-! ### C115 -/

/-- Row `v` is token `t`, moved by the encoding of position `p`, and filled up with zeros. -/
def IsEmbedding (dim p : Nat) (t v : List ℝ) : Prop :=
  v.length = dim ∧ (∀ i (h : i < t.length), v[i]? = some (t[i] + encoding p i)) ∧ ∀ i, t.length ≤ i → i < dim → v[i]? = some 0

theorem embedToken_spec (e : Embedder) (t : List ℝ) (p : Nat) (hp : p < e.seq) (ht : t.length ≤ e.dim) : ∃ v, embedToken e t p = .ok v ∧ IsEmbedding e.dim p t v := by
  unfold embedToken
  rw [if_neg (by omega), if_neg (by omega)]
  refine ⟨_, rfl, by simp, ?_, ?_⟩
  · intro i h
    rw [List.getElem?_map, List.getElem?_range (by omega)]
    simp only [Option.map_some, List.getElem?_eq_getElem h, positional_entry e p i hp (by omega)]
  · intro i h1 h2
    rw [List.getElem?_map, List.getElem?_range h2]
    simp only [Option.map_some, List.getElem?_eq_none h1]

theorem embedLoop_spec (e : Embedder) (ts : List (List ℝ)) (p : Nat) (hp : p < e.seq) (ht : ∀ t ∈ ts.take (e.seq - p), t.length ≤ e.dim) :
    ∃ vs, embedLoop e ts p = .ok vs ∧ vs.length = min ts.length (e.seq - p) ∧
      ∀ j t v, ts[j]? = some t → vs[j]? = some v → IsEmbedding e.dim (p + j) t v := by
  induction ts generalizing p with
  | nil => exact ⟨[], rfl, by simp, by simp⟩
  | cons t ts ih =>
    obtain ⟨k, hk⟩ : ∃ k, e.seq - p = k + 1 := ⟨e.seq - p - 1, by omega⟩
    rw [hk, List.take_succ_cons] at ht
    obtain ⟨v, hv, hv'⟩ := embedToken_spec e t p hp (ht t List.mem_cons_self)
    unfold embedLoop
    rw [hv]
    simp only
    by_cases hl : e.seq ≤ p + 1
    · rw [if_pos hl]
      refine ⟨[v], rfl, by simp; omega, ?_⟩
      intro j t' v' h1 h2
      cases j with
      | zero =>
        cases h1
        cases h2
        exact hv'
      | succ j => simp at h2
    · rw [if_neg hl]
      obtain ⟨vs, h1, h2, h3⟩ := ih (p + 1) (by omega) (by
        rw [show e.seq - (p + 1) = k by omega]
        exact fun t ht' => ht t (List.mem_cons_of_mem _ ht'))
      refine ⟨v :: vs, by rw [h1]; rfl, by simp; omega, ?_⟩
      intro j t' v' h4 h5
      cases j with
      | zero =>
        cases h4
        cases h5
        exact hv'
      | succ j =>
        have := h3 j t' v' h4 h5
        rwa [show p + 1 + j = p + (j + 1) by omega] at this

/-- C115: as many rows as `calculate_result_shape` promises, each with the promised number of columns; row `j` is token `j` moved by the encoding of position `j`.
Missing: fewer tokens than the sequence length (`C115_shape_violated`) and length zero (`C115_zero_violated`). -/
theorem C115_partial (e : Embedder) (he : 0 < e.seq) (ts : List (List ℝ)) (hn : e.seq ≤ ts.length) (ht : ∀ t ∈ ts.take e.seq, t.length ≤ e.dim) :
    ∃ vs, embedTokens e ts = .ok vs ∧ (vs.length, e.dim) = resultShape e ∧ (∀ v ∈ vs, v.length = (resultShape e).2) ∧
      ∀ j t v, ts[j]? = some t → vs[j]? = some v → IsEmbedding e.dim j t v := by
  obtain ⟨vs, h1, h2, h3⟩ := embedLoop_spec e ts 0 he (by simpa using ht)
  simp only [Nat.zero_add] at h3
  refine ⟨vs, h1, by unfold resultShape; rw [h2]; congr; omega, ?_, h3⟩
  intro v hv
  obtain ⟨j, hj, rfl⟩ := List.getElem_of_mem hv
  exact (h3 j ts[j] vs[j] (List.getElem?_eq_getElem (by omega)) (List.getElem?_eq_getElem hj)).1

/-- For any number of tokens: one row for each of them, up to the sequence length. -/
theorem C115_rows_partial (e : Embedder) (he : 0 < e.seq) (ts : List (List ℝ)) (ht : ∀ t ∈ ts.take e.seq, t.length ≤ e.dim) :
    ∃ vs, embedTokens e ts = .ok vs ∧ vs.length = min ts.length e.seq ∧ ∀ j t v, ts[j]? = some t → vs[j]? = some v → IsEmbedding e.dim j t v := by
  obtain ⟨vs, h1, h2, h3⟩ := embedLoop_spec e ts 0 he (by simpa using ht)
  simp only [Nat.zero_add] at h3
  exact ⟨vs, h1, by simpa using h2, h3⟩

/-- C115 fails for fewer tokens: rows are missing. -/
theorem C115_shape_violated (e : Embedder) (ts : List (List ℝ)) (hn : ts.length < e.seq) (ht : ∀ t ∈ ts, t.length ≤ e.dim) :
    ∃ vs, embedTokens e ts = .ok vs ∧ vs.length < (resultShape e).1 := by
  obtain ⟨vs, h1, h2, _⟩ := C115_rows_partial e (by omega) ts fun t h => ht t (List.mem_of_mem_take h)
  exact ⟨vs, h1, by unfold resultShape; omega⟩

/-- C115 fails for sequences of length zero: the result for any tokens is an exception, not the empty sequence. -/
theorem C115_zero_violated (dim : Nat) (t : List ℝ) (ts : List (List ℝ)) : embedTokens ⟨0, dim⟩ (t :: ts) = .throws := by
  simp [embedTokens, embedLoop, embedToken]

/-- A token that is too long is reported by an exception. -/
theorem C115_long (e : Embedder) (t : List ℝ) (ts : List (List ℝ)) (h : e.dim < t.length) : embedTokens e (t :: ts) = .throws := by
  unfold embedTokens embedLoop embedToken
  rw [if_pos h]
  split <;> simp_all

example : (2 : Nat) ≤ [[1, 0], [0, 1], ([0] : List ℝ)].length ∧ ∀ t ∈ [[1, 0], [0, 1], ([0] : List ℝ)].take 2, t.length ≤ 2 := by
  constructor
  · decide
  · intro t ht
    simp at ht
    rcases ht with rfl | rfl <;> simp

/-! ### C116 -/

/-- At an even index whose frequency is small enough for the sequence, the encodings of all positions differ. -/
theorem encoding_injective (n i p q : Nat) (hi : i % 2 = 0) (hn : (n : ℝ) * exp (-(i / log 10000)) ≤ π / 2) (hp : p ≤ n) (hq : q ≤ n)
    (h : encoding p i = encoding q i) : p = q := by
  unfold encoding at h
  rw [if_pos hi, if_pos hi] at h
  have hlog : 0 < log 10000 := log_pos (by norm_num)
  generalize hx : exp (-((i : ℝ) / log 10000)) = x at h hn
  have hx0 : 0 < x := hx ▸ exp_pos _
  have hx1 : x ≤ 1 := by
    rw [← hx, exp_le_one_iff, neg_nonpos]
    positivity
  have hs0 : 0 < sin x := sin_pos_of_pos_of_lt_pi hx0 (by linarith [pi_gt_three])
  have hs1 : sin x ≤ x := (sin_lt hx0).le
  have hmem : ∀ k : Nat, k ≤ n → (k : ℝ) * sin x ∈ Set.Icc (-(π / 2)) (π / 2) := by
    intro k hk
    have hk' : (k : ℝ) ≤ n := by exact_mod_cast hk
    have h0 : 0 ≤ (k : ℝ) * sin x := by positivity
    refine ⟨by linarith [pi_pos], le_trans ?_ hn⟩
    exact mul_le_mul hk' hs1 hs0.le (by positivity)
  have := injOn_sin (hmem p hp) (hmem q hq) h
  have := mul_right_cancel₀ hs0.ne' this
  exact_mod_cast this

/-- At most one entry of a token is not zero: a one-hot token, or one for an unknown code. -/
def AtMostOne (t : List ℝ) : Prop := ∃ k, ∀ i (h : i < t.length), i ≠ k → t[i] = 0

/-- C116: tokens of the same length at positions of a sequence whose embeddings are equal are the same token at the same position, if the frequencies become
small enough for the length of the sequence. Missing: few dimensions. -/
theorem C116_partial (e : Embedder) (t u : List ℝ) (p q i : Nat) (hl : t.length = u.length) (ht : AtMostOne t) (hu : AtMostOne u) (hd : t.length ≤ e.dim)
    (hp : p < e.seq) (hq : q < e.seq) (hi : i % 2 = 0) (hi' : i + 4 < t.length) (hs : ((e.seq - 1 : Nat) : ℝ) * exp (-(i / log 10000)) ≤ π / 2)
    (h : embedToken e t p = embedToken e u q) : t = u ∧ p = q := by
  obtain ⟨v, hv, _, hv', _⟩ := embedToken_spec e t p hp hd
  obtain ⟨w, hw, _, hw', _⟩ := embedToken_spec e u q hq (by omega)
  rw [hv, hw] at h
  cases h
  have key : ∀ j (h1 : j < t.length) (h2 : j < u.length), t[j] + encoding p j = u[j] + encoding q j := by
    intro j h1 h2
    have a := hv' j h1
    rw [hw' j h2] at a
    exact (Option.some.inj a).symm
  have hpq : p = q := by
    obtain ⟨k, hk⟩ := ht
    obtain ⟨l, hl'⟩ := hu
    obtain ⟨j, hj, hj1, hj2⟩ : ∃ j, (j = i ∨ j = i + 2 ∨ j = i + 4) ∧ j ≠ k ∧ j ≠ l := by
      by_cases h1 : i ≠ k ∧ i ≠ l
      · exact ⟨i, by omega, h1.1, h1.2⟩
      · by_cases h2 : i + 2 ≠ k ∧ i + 2 ≠ l
        · exact ⟨i + 2, by omega, h2.1, h2.2⟩
        · exact ⟨i + 4, by omega, by omega, by omega⟩
    have e1 := key j (by omega) (by omega)
    rw [hk j (by omega) hj1, hl' j (by omega) hj2, zero_add, zero_add] at e1
    refine encoding_injective (e.seq - 1) j p q (by omega) (le_trans ?_ hs) (by omega) (by omega) e1
    apply mul_le_mul_of_nonneg_left _ (by positivity)
    rw [exp_le_exp, neg_le_neg_iff]
    have hlog : 0 < log 10000 := log_pos (by norm_num)
    apply div_le_div_of_nonneg_right _ hlog.le
    exact_mod_cast (by omega : i ≤ j)
  refine ⟨?_, hpq⟩
  subst hpq
  apply List.ext_getElem hl
  intro j h1 h2
  exact add_right_cancel (key j h1 h2)

/-- The default of 512 dimensions suffices for 2048 positions. -/
example : ((2048 - 1 : Nat) : ℝ) * exp (-((506 : Nat) / log 10000)) ≤ π / 2 := by
  have hlog : 0 < log 10000 := log_pos (by norm_num)
  have h1 : log 10000 ≤ 10 := by
    rw [log_le_iff_le_exp (by norm_num), show (10 : ℝ) = ((10 : ℕ) : ℝ) * 1 by norm_num, exp_nat_mul]
    have := exp_one_gt_d9
    calc (10000 : ℝ) ≤ 2.7 ^ 10 := by norm_num
      _ ≤ exp 1 ^ 10 := pow_le_pow_left₀ (by norm_num) (by linarith) 10
  have h2 : (50 : ℝ) ≤ ((506 : Nat) : ℝ) / log 10000 := by
    rw [le_div_iff₀ hlog]
    norm_num
    linarith
  have h3 : exp (-(((506 : Nat) : ℝ) / log 10000)) ≤ (1 / 2) ^ 50 := by
    calc exp (-(((506 : Nat) : ℝ) / log 10000)) ≤ exp (-50) := by rw [exp_le_exp]; linarith
      _ = (exp 1 ^ 50)⁻¹ := by rw [exp_neg, show (50 : ℝ) = ((50 : ℕ) : ℝ) * 1 by norm_num, exp_nat_mul]
      _ ≤ (2 ^ 50)⁻¹ := by
        apply inv_anti₀ (by norm_num)
        exact pow_le_pow_left₀ (by norm_num) (by linarith [exp_one_gt_d9]) 50
      _ = (1 / 2) ^ 50 := by norm_num
  have := pi_gt_three
  calc ((2048 - 1 : Nat) : ℝ) * exp (-((506 : Nat) / log 10000)) ≤ ((2048 - 1 : Nat) : ℝ) * (1 / 2) ^ 50 := mul_le_mul_of_nonneg_left h3 (by positivity)
    _ ≤ π / 2 := by norm_num; linarith

example : AtMostOne [0, 1, 0] := ⟨1, by
  intro i h hi
  match i with
  | 0 => rfl
  | 1 => exact absurd rfl hi
  | 2 => rfl⟩

/-! ### C117: codes determine the text -/

open Verif.Bpe Verif.ReplaceAll Verif.Tokenizer

/-- Replacing a single character works character by character. -/
theorem replaceAll_one (s p : Str16) (k : BitVec 16) : replaceAll s [k] p = s.flatMap fun c => if c = k then p else [c] := by
  have h := C09_replaced s [k] p (by simp)
  generalize replaceAll s [k] p = out at h
  induction h with
  | done => rfl
  | hit t out _ ih => simp [ih]
  | copy c s out hc _ ih =>
    have : c ≠ k := by
      rintro rfl
      exact hc ⟨s, rfl⟩
    simp [this, ih]

/-- The replacements of `decode`. -/
def expand (table : List (Str16 × Str16)) (s : Str16) : Str16 := table.foldl (fun s e => replaceAll s e.2 e.1) s

theorem expand_append (table : List (Str16 × Str16)) (h : ∀ e ∈ table, ∃ k, e.2 = [k]) (s t : Str16) : expand table (s ++ t) = expand table s ++ expand table t := by
  induction table generalizing s t with
  | nil => rfl
  | cons e table ih =>
    obtain ⟨k, hk⟩ := h e List.mem_cons_self
    unfold expand
    simp only [List.foldl_cons]
    rw [hk, replaceAll_one, replaceAll_one, replaceAll_one, List.flatMap_append]
    exact ih (fun e he => h e (List.mem_cons_of_mem _ he)) _ _

theorem expand_nil (table : List (Str16 × Str16)) (h : ∀ e ∈ table, ∃ k, e.2 = [k]) : expand table [] = [] := by
  induction table with
  | nil => rfl
  | cons e table ih =>
    obtain ⟨k, hk⟩ := h e List.mem_cons_self
    unfold expand
    simp only [List.foldl_cons]
    rw [hk, replaceAll_one]
    exact ih fun e he => h e (List.mem_cons_of_mem _ he)

/-- What a token looks like between delimiters. -/
def framed (d : BitVec 16) (t : Str8) : Str16 := [d] ++ t.map widen ++ [d]

theorem expand_encode (m : Model) (t : Str8) (ht : t ≠ []) (h : Usable m t) : expand m.table (Bpe.encode m t) = framed m.delim t := by
  have hf : Fresh m.table.reverse (· ∈ [m.delim] ++ t.map widen ++ [m.delim]) := by
    refine ⟨?_, ?_⟩
    · intro e he
      obtain ⟨k, hk, h1, h2⟩ := h.1 e (List.mem_reverse.mp he)
      refine ⟨k, hk, ?_⟩
      simp only [List.mem_append, List.mem_singleton, List.mem_map]
      rintro ((h | ⟨c, hc, rfl⟩) | h)
      · exact h1 h
      · exact h2 c hc rfl
      · exact h1 h
    · rw [List.map_reverse, List.nodup_reverse]; exact h.2
  have hc := codec m.table.reverse _ hf
  rw [List.reverse_reverse] at hc
  unfold expand Bpe.encode
  rw [if_neg ht]
  exact hc

theorem widen_ne (d : BitVec 16) (h1 : 127 < d.toNat) (h2 : d.toNat < 0xFF80) (c : BitVec 8) : widen c ≠ d := by
  have : ∀ c : BitVec 8, (widen c).toNat ≤ 127 ∨ 0xFF80 ≤ (widen c).toNat := by decide +kernel
  rintro rfl
  have := this c
  omega

theorem framed_injective (d : BitVec 16) (h1 : 127 < d.toNat) (h2 : d.toNat < 0xFF80) (ts us : List Str8)
    (h : (ts.map (framed d)).flatten = (us.map (framed d)).flatten) : ts = us := by
  have split : ∀ (a b : Str8) (x y : Str16), a.map widen ++ d :: x = b.map widen ++ d :: y → a = b ∧ x = y := by
    intro a
    induction a with
    | nil =>
      intro b x y hab
      cases b with
      | nil => simpa using hab
      | cons c b =>
        simp only [List.map_nil, List.nil_append, List.map_cons, List.cons_append, List.cons.injEq] at hab
        exact absurd hab.1.symm (widen_ne d h1 h2 c)
    | cons c a ih =>
      intro b x y hab
      cases b with
      | nil =>
        simp only [List.map_nil, List.nil_append, List.map_cons, List.cons_append, List.cons.injEq] at hab
        exact absurd hab.1 (widen_ne d h1 h2 c)
      | cons c' b =>
        simp only [List.map_cons, List.cons_append, List.cons.injEq] at hab
        obtain ⟨e1, e2⟩ := ih b x y hab.2
        have e3 : c = c' := by rw [← narrow_widen c, hab.1, narrow_widen]
        exact ⟨by rw [e1, e3], e2⟩
  induction ts generalizing us with
  | nil =>
    cases us with
    | nil => rfl
    | cons u us => simp [framed] at h
  | cons t ts ih =>
    cases us with
    | nil => simp [framed] at h
    | cons u us =>
      simp only [List.map_cons, List.flatten_cons, framed, List.append_assoc, List.cons_append, List.nil_append, List.cons.injEq, true_and] at h
      obtain ⟨e1, e2⟩ := split t u _ _ h
      rw [e1, ih us e2]

theorem codes_injective (m : Model) (hd1 : 127 < m.delim.toNat) (hd2 : m.delim.toNat < 0xFF80) (hm : ∀ t, Usable m t) (ts us : List Str8) (ht : ∀ t ∈ ts, t ≠ [])
    (hu : ∀ u ∈ us, u ≠ []) (h : (ts.map (Bpe.encode m)).flatten = (us.map (Bpe.encode m)).flatten) : ts = us := by
  have hone : ∀ e ∈ m.table, ∃ k, e.2 = [k] := fun e he => by
    obtain ⟨k, hk, _⟩ := (hm []).1 e he
    exact ⟨k, hk⟩
  have key : ∀ ts : List Str8, (∀ t ∈ ts, t ≠ []) → expand m.table (ts.map (Bpe.encode m)).flatten = (ts.map (framed m.delim)).flatten := by
    intro ts
    induction ts with
    | nil => intro _; exact expand_nil _ hone
    | cons t ts ih =>
      intro ht
      rw [List.map_cons, List.flatten_cons, expand_append _ hone, expand_encode m t (ht t List.mem_cons_self) (hm t), ih fun t h => ht t (List.mem_cons_of_mem _ h),
        List.map_cons, List.flatten_cons]
  apply framed_injective m.delim hd1 hd2
  rw [← key ts ht, ← key us hu, h]

/-! ### C117: rows determine codes -/

/-- Every character of an encoded token is the delimiter, one of its characters, or a code. -/
theorem mem_encode (m : Model) (t : Str8) : ∀ x ∈ Bpe.encode m t, x = m.delim ∨ (∃ c ∈ t, x = widen c) ∨ ∃ e ∈ m.table, x ∈ e.2 := by
  have gen : ∀ (table : List (Str16 × Str16)) (s : Str16), ∀ x ∈ table.foldl (fun s e => replaceAll s e.1 e.2) s, x ∈ s ∨ ∃ e ∈ table, x ∈ e.2 := by
    intro table
    induction table with
    | nil => intro s x hx; exact Or.inl hx
    | cons e table ih =>
      intro s x hx
      rcases ih _ x hx with h | ⟨f, hf, hx'⟩
      · rcases mem_replaceAll s e.1 e.2 x h with h | h
        · exact Or.inl h
        · exact Or.inr ⟨e, List.mem_cons_self, h⟩
      · exact Or.inr ⟨f, List.mem_cons_of_mem _ hf, hx'⟩
  intro x hx
  unfold Bpe.encode at hx
  split at hx
  · cases hx
  · rcases gen _ _ x hx with h | ⟨e, he, hx'⟩
    · simp only [List.mem_append, List.mem_singleton, List.mem_map] at h
      rcases h with (h | ⟨c, hc, rfl⟩) | h
      · exact Or.inl h
      · exact Or.inr (Or.inl ⟨c, hc, rfl⟩)
      · exact Or.inl h
    · exact Or.inr (Or.inr ⟨e, List.mem_reverse.1 he, hx'⟩)

/-- The characters of the tokens of a text: those below 128, and 254 for what cannot be printed. -/
theorem token_chars (text : Str8) : ∀ t ∈ tokens text, t ≠ [] ∧ ∀ c ∈ t, c.toNat < 128 ∨ c = 254 := by
  intro t ht
  obtain ⟨h, hne⟩ := C13_shape text t ht
  refine ⟨hne, ?_⟩
  have sp : ∀ c : BitVec 8, isSpace c = true → c.toNat < 128 := by decide +kernel
  have pr : ∀ c : BitVec 8, isPrint c = true → c.toNat < 128 := by decide +kernel
  have al : ∀ c : BitVec 8, isAlnum c = true → c.toNat < 128 := by decide +kernel
  intro c hc
  rcases h with ⟨c', rfl, hp⟩ | ⟨sp', w, rfl, _, hs, hw⟩
  · rw [List.mem_singleton] at hc
    subst hc
    exact Or.inl (pr c hp.1)
  · rw [List.mem_append] at hc
    rcases hc with hc | hc
    · rcases hs with rfl | ⟨c', rfl, hs⟩
      · cases hc
      · rw [List.mem_singleton] at hc
        subst hc
        exact Or.inl (sp c hs)
    · rcases hw c hc with h | h | h
      · exact Or.inl (al c h)
      · exact Or.inr h
      · subst h; exact Or.inl (by decide)

/-- An encoder knows that its codes are taken: the next code is above all of them. -/
def Current (m : Model) : Prop := m.delim < m.next ∧ ∀ e ∈ m.table, ∀ k ∈ e.2, k < m.next

/-- What can occur among the codes of a text. -/
theorem mem_textCodes (m : Model) (hd : 127 < m.delim.toNat) (hm : Current m) (text : Str8) : ∀ x ∈ (textCodes m text).flatten, x.toNat < m.next.toNat ∨ x = 0xFFFE := by
  intro x hx
  obtain ⟨s, hs, hx⟩ := List.mem_flatten.1 hx
  obtain ⟨t, ht, rfl⟩ := List.mem_map.1 hs
  have h1 := hm.1
  rw [BitVec.lt_def] at h1
  rcases mem_encode m t x hx with rfl | ⟨c, hc, rfl⟩ | ⟨e, he, hk⟩
  · exact Or.inl h1
  · rcases (token_chars text t ht).2 c hc with h | rfl
    · have : ∀ c : BitVec 8, c.toNat < 128 → (widen c).toNat ≤ 127 := by decide +kernel
      have := this c h
      exact Or.inl (by omega)
    · exact Or.inr (by decide)
  · have := hm.2 e he x hk
    rw [BitVec.lt_def] at this
    exact Or.inl this

/-- The one-hot rows of codes. -/
def row (largest : Nat) (c : BitVec 16) : List Nat := if c.toNat < largest then (OneHot.zeros largest).set c.toNat 1 else OneHot.zeros largest

theorem bpe_rows (codes : List Str16) (largest : Nat) (h : ∀ x ∈ codes.flatten, x.toNat ≠ largest) : OneHot.bpe codes largest = some (codes.flatten.map (row largest)) := by
  unfold OneHot.bpe
  generalize codes.flatten = l at h
  induction l with
  | nil => rfl
  | cons c l ih =>
    have hc := h c List.mem_cons_self
    have : OneHot.bpeRow largest c = some (row largest c) := by
      unfold OneHot.bpeRow row
      by_cases hl : c.toNat ≤ largest
      · rw [if_pos hl, if_pos (by omega)]
        unfold OneHot.mark
        rw [if_pos (by simp [OneHot.zeros]; omega)]
      · rw [if_neg hl, if_neg (by omega)]
    rw [List.mapM_cons, this, ih fun x hx => h x (List.mem_cons_of_mem _ hx)]
    rfl

theorem row_length (largest : Nat) (c : BitVec 16) : (row largest c).length = largest := by
  unfold row
  split <;> simp [OneHot.zeros]

theorem row_injective (largest : Nat) (x y : BitVec 16) (hx : x.toNat < largest ∨ x = 0xFFFE) (hy : y.toNat < largest ∨ y = 0xFFFE) (h : row largest x = row largest y) :
    x = y := by
  have entry : ∀ z : BitVec 16, z.toNat < largest → ∀ j, j < largest → (row largest z)[j]? = some (if j = z.toNat then 1 else 0) := by
    intro z hz j hj
    unfold row
    rw [if_pos hz, List.getElem?_set]
    by_cases e : z.toNat = j
    · rw [if_pos e, if_pos (by simp [OneHot.zeros]; omega), if_pos e.symm]
    · rw [if_neg e, if_neg (Ne.symm e)]
      simp [OneHot.zeros, hj]
  have zero : ∀ z : BitVec 16, ¬ z.toNat < largest → ∀ j, j < largest → (row largest z)[j]? = some 0 := by
    intro z hz j hj
    unfold row
    rw [if_neg hz]
    simp [OneHot.zeros, hj]
  by_cases hx' : x.toNat < largest
  · have a := entry x hx' x.toNat hx'
    rw [if_pos rfl, h] at a
    by_cases hy' : y.toNat < largest
    · rw [entry y hy' x.toNat hx'] at a
      by_cases e : x.toNat = y.toNat
      · exact BitVec.eq_of_toNat_eq e
      · rw [if_neg e] at a
        cases a
    · rw [zero y hy' x.toNat hx'] at a
      cases a
  · by_cases hy' : y.toNat < largest
    · have a := entry y hy' y.toNat hy'
      rw [if_pos rfl, ← h, zero x hx' y.toNat hy'] at a
      cases a
    · rw [hx.resolve_left hx', hy.resolve_left hy']

/-- For a current encoder and enough dimensions, a text can be embedded; the embedding determines as many codes as there is room for. -/
theorem embed_codes (m : Model) (e : Embedder) (he : 0 < e.seq) (hdim : m.next.toNat ≤ e.dim) (hd : 127 < m.delim.toNat) (hn : m.next.toNat < 0xFFFE) (hm : Current m)
    (text : Str8) :
    ∃ vs, embedText m e text = .ok vs ∧ vs.length = min (textCodes m text).flatten.length e.seq ∧
      ∀ text' vs', embedText m e text' = .ok vs' → vs = vs' → (textCodes m text).flatten.take e.seq = (textCodes m text').flatten.take e.seq := by
  have hne : ∀ text, ∀ x ∈ (textCodes m text).flatten, x.toNat ≠ m.next.toNat := by
    intro text x hx h
    rcases mem_textCodes m hd hm text x hx with h' | h'
    · omega
    · subst h'
      rw [← h] at hn
      exact absurd hn (by decide)
  have rows : ∀ text, ∃ vs, embedText m e text = .ok vs ∧ vs.length = min (textCodes m text).flatten.length e.seq ∧
      ∀ j c v, (textCodes m text).flatten[j]? = some c → vs[j]? = some v → IsEmbedding e.dim j ((row m.next.toNat c).map fun (x : Nat) => (x : ℝ)) v := by
    intro text
    unfold embedText
    rw [bpe_rows _ _ (hne text)]
    simp only [List.map_map]
    obtain ⟨vs, h1, h2, h3⟩ := C115_rows_partial e he (List.map ((fun r => List.map (fun (x : Nat) => (x : ℝ)) r) ∘ row m.next.toNat) (textCodes m text).flatten) (by
      intro t ht
      obtain ⟨c, _, rfl⟩ := List.mem_map.1 (List.mem_of_mem_take ht)
      simp only [Function.comp_apply, List.length_map, row_length]
      exact hdim)
    refine ⟨vs, h1, by rw [h2, List.length_map], ?_⟩
    intro j c v hc hv
    exact h3 j _ v (by rw [List.getElem?_map, hc]; rfl) hv
  obtain ⟨vs, h1, h2, h3⟩ := rows text
  refine ⟨vs, h1, h2, ?_⟩
  intro text' vs' hv' heq
  subst heq
  obtain ⟨vs'', k1, k2, k3⟩ := rows text'
  rw [hv'] at k1
  cases k1
  apply List.ext_getElem?
  intro j
  by_cases hj : j < vs.length
  · rw [List.getElem?_take_of_lt (by omega), List.getElem?_take_of_lt (by omega), List.getElem?_eq_getElem (by omega), List.getElem?_eq_getElem (by omega)]
    congr 1
    have a := h3 j _ _ (List.getElem?_eq_getElem (by omega)) (List.getElem?_eq_getElem hj)
    have b := k3 j _ _ (List.getElem?_eq_getElem (by omega)) (List.getElem?_eq_getElem hj)
    apply row_injective m.next.toNat
    · exact mem_textCodes m hd hm text _ (List.getElem_mem _)
    · exact mem_textCodes m hd hm text' _ (List.getElem_mem _)
    · apply List.ext_getElem (by rw [row_length, row_length])
      intro i i1 i2
      have a1 := a.2.1 i (by simpa using i1)
      have b1 := b.2.1 i (by simpa using i2)
      rw [a1] at b1
      have := add_right_cancel (Option.some.inj b1)
      simp only [List.getElem_map] at this
      exact_mod_cast this
  · rw [List.getElem?_eq_none (by rw [List.length_take]; omega), List.getElem?_eq_none (by rw [List.length_take]; omega)]

/-- A new encoder is current, and so is one after training. -/
theorem current_new (delim : BitVec 16) (hd : delim.toNat < 0x7FFD) : Current (Bpe.new delim) := by
  refine ⟨?_, by simp [Bpe.new]⟩
  show delim < delim + 1
  rw [BitVec.lt_def, BitVec.toNat_add]
  simp
  omega

theorem current_train {delim : BitVec 16} (hd : delim.toNat < 0x7FFD) {m m' : Model} (h : Reach delim m) {o minFreq numMerges fuel data}
    (hcap : (bumpNext m.table m.next).toNat < 0x7FFE) (ht : train o minFreq numMerges fuel m data = some m') : Current m' ∧ m'.next.toNat ≤ 0x7FFE := by
  obtain ⟨e, h2, h3⟩ := reach_ok hd h
  subst e
  obtain ⟨e, hok, hle, hb⟩ := C11_train_step o minFreq numMerges fuel m m' data ht (ok_mono h3 (by decide)) h2 (by omega)
  refine ⟨⟨?_, ?_⟩, by omega⟩
  · rw [e]
    rw [BitVec.lt_def, BitVec.le_def] at *
    omega
  · intro x hx k hk
    obtain ⟨_, k', hk', _, h⟩ := hok.1 x hx
    rw [hk', List.mem_singleton] at hk
    rw [hk]
    exact h

/-- C117: with a trained encoder and an embedder with enough dimensions and room for all codes, texts with the same embedding have the same content (as the tokenizer
sees it, C13). Missing: encoders that were loaded (`C117_loaded_violated`), training that starts after the last code (C11), longer texts. -/
theorem C117_partial (delim : BitVec 16) (hd1 : 127 < delim.toNat) (hd2 : delim.toNat < 0x7FFD) (m : Model) (hm : Reach delim m) (hc : Current m)
    (hn : m.next.toNat < 0xFFFE) (e : Embedder) (he : 0 < e.seq) (hdim : m.next.toNat ≤ e.dim) (text text' : Str8) (h1 : (textCodes m text).flatten.length ≤ e.seq)
    (h2 : (textCodes m text').flatten.length ≤ e.seq) :
    (∃ vs, embedText m e text = .ok vs ∧ vs.length = (textCodes m text).flatten.length) ∧ (embedText m e text = embedText m e text' → content text = content text') := by
  have hdel := (reach_ok hd2 hm).1
  obtain ⟨vs, hv, hl, hinj⟩ := embed_codes m e he hdim (by rw [hdel]; exact hd1) hn hc text
  refine ⟨⟨vs, hv, by omega⟩, ?_⟩
  intro h
  have := hinj text' vs (h ▸ hv) rfl
  rw [List.take_of_length_le h1, List.take_of_length_le h2] at this
  have := codes_injective m (by rw [hdel]; exact hd1) (by rw [hdel]; omega) (by
    intro t
    obtain ⟨a, b⟩ := C11_codes_partial delim (by omega) hd2 m hm
    refine ⟨?_, b⟩
    intro x hx
    obtain ⟨k, hk, k1, k2, k3⟩ := a x hx
    refine ⟨k, hk, ?_, fun c _ => k3 c⟩
    rw [hdel]
    rintro rfl
    rw [BitVec.lt_def] at k1
    omega) (tokens text) (tokens text') (fun t ht => (token_chars text t ht).1) (fun t ht => (token_chars text' t ht).1) this
  rw [← C13_content, ← C13_content, this]

/-- Too few dimensions for the codes are reported by an exception. -/
theorem C117_dimensions (m : Model) (e : Embedder) (hdim : e.dim < m.next.toNat) (hd : 127 < m.delim.toNat) (hn : m.next.toNat < 0xFFFE) (hm : Current m)
    (text : Str8) (hne : (textCodes m text).flatten ≠ []) : embedText m e text = .throws := by
  have hne' : ∀ x ∈ (textCodes m text).flatten, x.toNat ≠ m.next.toNat := by
    intro x hx h
    rcases mem_textCodes m hd hm text x hx with h' | h'
    · omega
    · subst h'
      rw [← h] at hn
      exact absurd hn (by decide)
  unfold embedText
  rw [bpe_rows _ _ hne']
  simp only
  obtain ⟨c, cs, hcs⟩ := List.exists_cons_of_ne_nil hne
  rw [hcs]
  exact C115_long e _ _ (by rw [List.length_map, row_length]; exact hdim)

/-- An encoder that was trained on "ab", then on "cd", then on "ed", each of them twice. -/
def thrice : Model :=
  ⟨[([101, 262], [264]), ([256, 101], [263]), ([100, 256], [262]), ([99, 100], [261]), ([256, 99], [260]), ([98, 256], [259]), ([97, 98], [258]),
    ([256, 97], [257])], 256, 265⟩

theorem thrice_reach : Reach 256 thrice ∧ Current thrice := by
  have h1 : train plainOracle 2 (2 ^ 64 - 1) 100 (Bpe.new 256) [[97, 98], [97, 98]] =
      some ⟨[([98, 256], [259]), ([97, 98], [258]), ([256, 97], [257])], 256, 260⟩ := by decide +kernel
  have h2 : train plainOracle 2 (2 ^ 64 - 1) 100 ⟨[([98, 256], [259]), ([97, 98], [258]), ([256, 97], [257])], 256, 260⟩ [[99, 100], [99, 100]] =
      some ⟨[([100, 256], [262]), ([99, 100], [261]), ([256, 99], [260]), ([98, 256], [259]), ([97, 98], [258]), ([256, 97], [257])], 256, 263⟩ := by
    decide +kernel
  have h3 : train plainOracle 2 (2 ^ 64 - 1) 100
      ⟨[([100, 256], [262]), ([99, 100], [261]), ([256, 99], [260]), ([98, 256], [259]), ([97, 98], [258]), ([256, 97], [257])], 256, 263⟩
      [[101, 100], [101, 100]] = some thrice := by decide +kernel
  have r1 := Reach.train (Reach.fresh (delim := 256)) (by decide +kernel) h1
  have r2 := Reach.train r1 (by decide +kernel) h2
  exact ⟨Reach.train r2 (by decide +kernel) h3, (current_train (by decide) r2 (by decide +kernel) h3).1⟩

/-- C117 fails for an encoder that was saved and loaded: it takes the code after the delimiter for its largest one. Texts that differ, here "cd" and "ed", get the same
embedding in every embedder, and the first code that was learned, here in "ab", is written behind the end of its row. -/
theorem C117_loaded_violated : ∃ m, Reach 256 m ∧ Current m ∧ ∀ e : Embedder,
    embedText (load (Bpe.new 256) (saveBytes m)) e [99, 100] = embedText (load (Bpe.new 256) (saveBytes m)) e [101, 100] ∧
    content [99, 100] ≠ content [101, 100] ∧ embedText (load (Bpe.new 256) (saveBytes m)) e [97, 98] = .undefined := by
  have hl : load (Bpe.new 256) (saveBytes thrice) = ⟨thrice.table, 256, 257⟩ := by decide +kernel
  refine ⟨thrice, thrice_reach.1, thrice_reach.2, fun e => ⟨?_, by decide +kernel, ?_⟩⟩
  · have : OneHot.bpe (textCodes ⟨thrice.table, 256, 257⟩ [99, 100]) 257 = OneHot.bpe (textCodes ⟨thrice.table, 256, 257⟩ [101, 100]) 257 := by decide +kernel
    unfold embedText
    rw [hl]
    show (match OneHot.bpe (textCodes ⟨thrice.table, 256, 257⟩ [99, 100]) 257 with | none => _ | some rows => _) = _
    rw [this]
    rfl
  · have : OneHot.bpe (textCodes ⟨thrice.table, 256, 257⟩ [97, 98]) 257 = none := by decide +kernel
    unfold embedText
    rw [hl]
    show (match OneHot.bpe (textCodes ⟨thrice.table, 256, 257⟩ [97, 98]) 257 with | none => _ | some rows => _) = _
    rw [this]

/-- Ten codes and 265 dimensions suffice for the texts of the witness. -/
example : Reach 256 thrice ∧ Current thrice ∧ thrice.next.toNat < 0xFFFE ∧ thrice.next.toNat ≤ (⟨10, 265⟩ : Embedder).dim ∧
    (textCodes thrice [99, 100, 32, 97, 200]).flatten.length ≤ (⟨10, 265⟩ : Embedder).seq :=
  ⟨thrice_reach.1, thrice_reach.2, by decide, by decide, by decide +kernel⟩

end Verif.Embedding
