import Verif.Model.PrintTensor
import Verif.Spec.PrintTensor
import Verif.Props.C157_PrintRow
import Verif.Props.C101_Decimal

/-!
C158: the text of a tensor has each number at its place.

`C158_place` is about the text a decoder returns, from which the numbers can be read back exactly in the range of C101. `C158_short` is about the printed text with
three decimals. `C158_injective`: different tensors of one shape have different texts in that range. Numbers that are smaller are lost: `C158_violated`.
-/
namespace Verif.PrintTensor
open Verif.TextCodec Verif.FloatBits Verif.FloatArith Verif.Decimal Verif.PrintRow

variable (fmt : BitVec 32 → Str)

theorem splitLines_line (l s : Str) (h : ∀ c ∈ l, c ≠ 10) : splitLines (l ++ 10 :: s) = l :: splitLines s := by
  induction l with
  | nil => simp [splitLines]
  | cons c l ih =>
    rw [List.cons_append, splitLines, if_neg (h c (by simp)), ih (fun d hd => h d (by simp [hd]))]

theorem splitLines_all (ls : List Str) (h : ∀ l ∈ ls, ∀ c ∈ l, c ≠ 10) : splitLines (ls.flatMap fun l => l ++ [10]) = ls := by
  induction ls with
  | nil => rfl
  | cons l ls ih =>
    rw [List.flatMap_cons, List.append_assoc, List.singleton_append, splitLines_line l _ (h l (by simp)), ih (fun l' h' => h l' (by simp [h']))]

theorem columnLoop_rest (xs : List (BitVec 32)) : ∀ o : Str, columnLoop fmt o [44, 32] xs = o ++ xs.flatMap fun x => sep ++ fmt x := by
  induction xs with
  | nil => intro o; simp [columnLoop]
  | cons x xs ih => intro o; rw [columnLoop, ih]; simp [sep]

theorem columnLoop_joined (xs : List (BitVec 32)) (o : Str) : columnLoop fmt o [] xs = o ++ joined sep (xs.map fmt) := by
  cases xs with
  | nil => simp [columnLoop, joined]
  | cons x xs => rw [columnLoop, columnLoop_rest, List.map_cons, joined_cons, List.flatMap_map]; simp

def rowText (several : Bool) (row : List (BitVec 32)) : Str :=
  (if several then 124 else 91) :: joined sep (row.map fmt) ++ [if several then 124 else 93]

theorem rowLoop_eq (several : Bool) (rows : List (List (BitVec 32))) :
    ∀ o : Str, rowLoop fmt several o rows = o ++ (rows.map (rowText fmt several)).flatMap fun l => l ++ [10] := by
  induction rows with
  | nil => intro o; simp [rowLoop]
  | cons row rows ih =>
    intro o
    rw [rowLoop, columnLoop_joined, ih]
    cases several <;> simp [rowText]

def block (many several : Bool) (rows : List (List (BitVec 32))) : List Str :=
  (if many then [[91]] else []) ++ rows.map (rowText fmt several) ++ if many then [[93]] else []

theorem channelLoop_eq (many several : Bool) (chs : List (List (List (BitVec 32)))) :
    ∀ o : Str, channelLoop fmt many several o chs = o ++ (chs.flatMap (block fmt many several)).flatMap fun l => l ++ [10] := by
  induction chs with
  | nil => intro o; simp [channelLoop]
  | cons rows chs ih =>
    intro o
    rw [channelLoop, rowLoop_eq, ih]
    cases many <;> simp [block]

theorem joined_plain (b : UInt8) (h44 : (44 : UInt8) ≠ b) (h32 : (32 : UInt8) ≠ b) (ss : List Str) (h : ∀ s ∈ ss, ∀ c ∈ s, c ≠ b) : ∀ c ∈ joined sep ss, c ≠ b := by
  cases ss with
  | nil => intro c hc; cases hc
  | cons s ss =>
    rw [joined_cons]
    intro c hc
    rcases List.mem_append.mp hc with hc | hc
    · exact h s (by simp) c hc
    · obtain ⟨u, hu, hc⟩ := List.mem_flatMap.mp hc
      rcases List.mem_append.mp hc with hc | hc
      · simp only [sep, List.mem_cons, List.not_mem_nil, or_false] at hc
        rcases hc with rfl | rfl
        · exact h44
        · exact h32
      · exact h u (by simp [hu]) c hc

theorem block_plain (hfmt : ∀ x, ∀ c ∈ fmt x, c ≠ 10) (many several : Bool) (rows : List (List (BitVec 32))) :
    ∀ l ∈ block fmt many several rows, ∀ c ∈ l, c ≠ 10 := by
  intro l hl c hc
  unfold block at hl
  rcases List.mem_append.mp hl with hl | hl
  · rcases List.mem_append.mp hl with hl | hl
    · cases many
      · simp at hl
      · simp at hl; subst hl; simp at hc; subst hc; decide
    · obtain ⟨row, -, rfl⟩ := List.mem_map.mp hl
      unfold rowText at hc
      rcases List.mem_append.mp hc with hc | hc
      · rcases List.mem_cons.mp hc with hc | hc
        · cases several <;> · subst hc; decide
        · refine joined_plain 10 (by decide) (by decide) _ ?_ c hc
          intro s hs
          obtain ⟨x, -, rfl⟩ := List.mem_map.mp hs
          exact hfmt x
      · rw [List.mem_singleton.mp hc]
        cases several <;> decide
  · cases many
    · simp at hl
    · simp at hl; subst hl; simp at hc; subst hc; decide

theorem flatMap_uniform {α β : Type} (f : α → List β) (n : Nat) (xs : List α) (h : ∀ x ∈ xs, (f x).length = n) :
    ∀ k i x, xs[k]? = some x → i < n → (xs.flatMap f)[k * n + i]? = (f x)[i]? := by
  induction xs with
  | nil => intro k i x hk; cases hk
  | cons y ys ih =>
    intro k i x hk hi
    rw [List.flatMap_cons]
    have hy := h y (by simp)
    cases k with
    | zero =>
      simp only [List.getElem?_cons_zero, Option.some.injEq] at hk
      subst hk
      rw [Nat.zero_mul, Nat.zero_add, List.getElem?_append_left (by omega)]
    | succ k =>
      rw [List.getElem?_append_right (by rw [hy, Nat.succ_mul]; omega), hy, show (k + 1) * n + i - n = k * n + i by rw [Nat.succ_mul]; omega]
      exact ih (fun x hx => h x (by simp [hx])) k i x (by simpa using hk) hi

/-- The lines of the text, for any way to print a number that has no newline. -/
theorem place (hfmt : ∀ x, ∀ c ∈ fmt x, c ≠ 10) (t : Tensor (BitVec 32)) (r k : Nat) (hr : r < t.rows) (hk : k < t.chans) :
    (splitLines (print fmt t)).length = (if t.chans = 1 then 1 + t.rows else 1 + t.chans * (t.rows + 2)) ∧
    (splitLines (print fmt t))[lineOf t.rows t.chans r k]? =
      some (rowText fmt (1 < t.rows) ((List.range t.cols).map fun c => t.get r c k)) := by
  obtain ⟨chs, hchs⟩ : ∃ chs, chs = (List.range t.chans).map fun k => (List.range t.rows).map fun r => (List.range t.cols).map fun c => t.get r c k := ⟨_, rfl⟩
  have hs : splitLines (print fmt t) = [] :: chs.flatMap (block fmt (1 < t.chans) (1 < t.rows)) := by
    unfold print
    rw [channelLoop_eq, List.singleton_append, splitLines, if_pos rfl, ← hchs, splitLines_all]
    intro l hl
    obtain ⟨rows, -, hl⟩ := List.mem_flatMap.mp hl
    exact block_plain fmt hfmt _ _ rows l hl
  have hck : chs[k]? = some ((List.range t.rows).map fun r => (List.range t.cols).map fun c => t.get r c k) := by
    rw [hchs, List.getElem?_map, List.getElem?_range hk]; rfl
  rw [hs]
  by_cases h1 : t.chans = 1
  · have hk0 : k = 0 := by omega
    subst hk0
    have hd : decide (1 < t.chans) = false := by simp [h1]
    rw [hd]
    unfold lineOf
    rw [if_pos h1, if_pos h1]
    have hb : chs.flatMap (block fmt false (decide (1 < t.rows))) =
        ((List.range t.rows).map fun r => (List.range t.cols).map fun c => t.get r c 0).map (rowText fmt (decide (1 < t.rows))) := by
      rw [hchs, h1]
      simp [block]
    rw [hb]
    refine ⟨by simp; omega, ?_⟩
    rw [Nat.add_comm 1 r, List.getElem?_cons_succ, List.getElem?_map, List.getElem?_map, List.getElem?_range hr]
    rfl
  · have hd : decide (1 < t.chans) = true := by simp; omega
    rw [hd]
    unfold lineOf
    rw [if_neg h1, if_neg h1]
    have hlen : ∀ rows ∈ chs, (block fmt true (decide (1 < t.rows)) rows).length = t.rows + 2 := by
      intro rows hrows
      rw [hchs] at hrows
      obtain ⟨k', -, rfl⟩ := List.mem_map.mp hrows
      simp [block]
    constructor
    · rw [List.length_cons, List.length_flatMap, List.map_congr_left hlen, List.map_const', List.sum_replicate_nat, hchs, List.length_map, List.length_range, Nat.add_comm]
    · rw [show 1 + k * (t.rows + 2) + 1 + r = k * (t.rows + 2) + (r + 1) + 1 by omega, List.getElem?_cons_succ,
        flatMap_uniform _ (t.rows + 2) chs hlen k (r + 1) _ hck (by omega)]
      unfold block
      simp only [if_true, List.nil_append, List.cons_append, List.getElem?_cons_succ]
      rw [List.getElem?_append_left (by simpa using hr), List.getElem?_map, List.getElem?_map, List.getElem?_range hr]
      rfl

theorem numeral_plain (x : BitVec 32) (w f : Str) (hw : IsDigits w) (hf : IsDigits f) :
    ∀ c ∈ (if neg x then [45] else []) ++ (if isNaN x then [110, 97, 110] else if isInf x then [105, 110, 102] else w ++ 46 :: f : Str), c ≠ 10 ∧ c ≠ 44 ∧ c ≠ 32 := by
  have hd : ∀ c : UInt8, Csv.isDigit c = true → c ≠ 10 ∧ c ≠ 44 ∧ c ≠ 32 := by
    intro c hc
    refine ⟨?_, ?_, ?_⟩ <;> · rintro rfl; exact absurd hc (by decide)
  have hl : ∀ l : Str, (∀ c ∈ l, c = 45 ∨ c = 110 ∨ c = 97 ∨ c = 105 ∨ c = 102 ∨ c = 46 ∨ Csv.isDigit c = true) → ∀ c ∈ l, c ≠ 10 ∧ c ≠ 44 ∧ c ≠ 32 := by
    intro l h c hc
    rcases h c hc with rfl | rfl | rfl | rfl | rfl | rfl | h
    any_goals decide
    exact hd c h
  apply hl
  intro c hc
  rcases List.mem_append.mp hc with hc | hc
  · split at hc
    · simp at hc; simp [hc]
    · cases hc
  · split at hc
    · simp at hc; tauto
    · split at hc
      · simp at hc; tauto
      · rcases List.mem_append.mp hc with hc | hc
        · exact by simp [hw c hc]
        · rcases List.mem_cons.mp hc with rfl | hc
          · simp
          · simp [hf c hc]

theorem long_plain (x : BitVec 32) : ∀ c ∈ asStringFloat x, c ≠ 10 ∧ c ≠ 44 ∧ c ≠ 32 :=
  numeral_plain x _ _ (dec_spec _).2.1 (padded_spec 15 _).1

theorem short_plain (x : BitVec 32) : ∀ c ∈ fixed3 x, c ≠ 10 ∧ c ≠ 44 ∧ c ≠ 32 :=
  numeral_plain x _ _ (dec_spec _).2.1 (padded_spec 3 _).1

/-- C158. In the text a decoder returns, row `r` of channel `k` is on a line of its own, between brackets or bars, and its numbers are in order and separated by
commas, which occur in no number. Each number in the range of C101 is read back exactly. -/
theorem C158_place (t : Tensor (BitVec 32)) (r k : Nat) (hr : r < t.rows) (hk : k < t.chans) :
    ∃ first last parts, (splitLines (decodeBest t))[lineOf t.rows t.chans r k]? = some (first :: joined [44, 32] parts ++ [last]) ∧
      (splitLines (decodeBest t)).length = (if t.chans = 1 then 1 + t.rows else 1 + t.chans * (t.rows + 2)) ∧
      (first, last) = (if t.rows = 1 then ((91 : UInt8), (93 : UInt8)) else (124, 124)) ∧ parts.length = t.cols ∧
      ∀ c, c < t.cols → ∃ s, parts[c]? = some s ∧ (∀ b ∈ s, b ≠ 10 ∧ b ≠ 44 ∧ b ≠ 32) ∧ (Survives (t.get r c k) → stof s = some (t.get r c k)) := by
  obtain ⟨hl, hp⟩ := place asStringFloat (fun x c hc => (long_plain x c hc).1) t r k hr hk
  refine ⟨if 1 < t.rows then 124 else 91, if 1 < t.rows then 124 else 93, (List.range t.cols).map fun c => asStringFloat (t.get r c k), ?_, hl, ?_, by simp, ?_⟩
  · refine hp.trans ?_
    unfold rowText
    simp only [decide_eq_true_eq, List.map_map]
    rfl
  · by_cases h : t.rows = 1
    · simp [h]
    · rw [if_neg h, if_pos (by omega), if_pos (by omega)]
  · intro c hc
    exact ⟨_, by rw [List.getElem?_map, List.getElem?_range hc]; rfl, long_plain _, C101_partial _⟩

/-- C158. The same with three decimals, for the text that `print()` writes. -/
theorem C158_short (t : Tensor (BitVec 32)) (r k : Nat) (hr : r < t.rows) (hk : k < t.chans) :
    ∃ first last parts, (splitLines (printShort t))[lineOf t.rows t.chans r k]? = some (first :: joined [44, 32] parts ++ [last]) ∧
      (splitLines (printShort t)).length = (if t.chans = 1 then 1 + t.rows else 1 + t.chans * (t.rows + 2)) ∧
      (first, last) = (if t.rows = 1 then ((91 : UInt8), (93 : UInt8)) else (124, 124)) ∧ parts.length = t.cols ∧
      ∀ c, c < t.cols → ∃ s, parts[c]? = some s ∧ (∀ b ∈ s, b ≠ 10 ∧ b ≠ 44 ∧ b ≠ 32) ∧ (isFinite (t.get r c k) = true → Shows s (t.get r c k)) := by
  obtain ⟨hl, hp⟩ := place fixed3 (fun x c hc => (short_plain x c hc).1) t r k hr hk
  refine ⟨if 1 < t.rows then 124 else 91, if 1 < t.rows then 124 else 93, (List.range t.cols).map fun c => fixed3 (t.get r c k), ?_, hl, ?_, by simp, ?_⟩
  · refine hp.trans ?_
    unfold rowText
    simp only [decide_eq_true_eq, List.map_map]
    rfl
  · by_cases h : t.rows = 1
    · simp [h]
    · rw [if_neg h, if_pos (by omega), if_pos (by omega)]
  · intro c hc
    exact ⟨_, by rw [List.getElem?_map, List.getElem?_range hc]; rfl, short_plain _, fixed3_shows _⟩

theorem split_comma (s s' u u' : Str) (h : ∀ c ∈ s, c ≠ 44) (h' : ∀ c ∈ s', c ≠ 44) (e : s ++ 44 :: u = s' ++ 44 :: u') : s = s' ∧ u = u' := by
  induction s generalizing s' with
  | nil =>
    cases s' with
    | nil => simpa using e
    | cons d s' =>
      simp only [List.nil_append, List.cons_append, List.cons.injEq] at e
      exact absurd e.1.symm (h' d (by simp))
  | cons c s ih =>
    cases s' with
    | nil =>
      simp only [List.nil_append, List.cons_append, List.cons.injEq] at e
      exact absurd e.1 (h c (by simp))
    | cons d s' =>
      simp only [List.cons_append, List.cons.injEq] at e
      obtain ⟨h1, h2⟩ := ih s' (fun c hc => h c (by simp [hc])) (fun c hc => h' c (by simp [hc])) e.2
      exact ⟨by rw [e.1, h1], h2⟩

theorem joined_inj (ss : List Str) : ∀ ss' : List Str, ss.length = ss'.length → (∀ s ∈ ss, ∀ c ∈ s, c ≠ 44) → (∀ s ∈ ss', ∀ c ∈ s, c ≠ 44) →
    joined sep ss = joined sep ss' → ss = ss' := by
  induction ss with
  | nil => intro ss' hl _ _ _; exact (List.length_eq_zero_iff.mp hl.symm).symm
  | cons s ss ih =>
    intro ss' hl h h' e
    match ss, ss', hl with
    | [], [s'], _ => simpa [joined] using e
    | t :: ts, s' :: t' :: ts', hl =>
      have e' : s ++ 44 :: (32 :: joined sep (t :: ts)) = s' ++ 44 :: (32 :: joined sep (t' :: ts')) := by
        simpa [joined, sep] using e
      obtain ⟨h1, h2⟩ := split_comma s s' _ _ (h s (by simp)) (h' s' (by simp)) e'
      simp only [List.cons.injEq, true_and] at h2
      rw [h1, ih (t' :: ts') (by simpa using hl) (fun x hx => h x (List.mem_cons_of_mem _ hx)) (fun x hx => h' x (List.mem_cons_of_mem _ hx)) h2]

/-- C158. Two tensors of one shape with numbers in the range of C101 that have the same text are equal. -/
theorem C158_injective (t u : Tensor (BitVec 32)) (hr : t.rows = u.rows) (hc : t.cols = u.cols) (hk : t.chans = u.chans)
    (ht : ∀ r c k, r < t.rows → c < t.cols → k < t.chans → Survives (t.get r c k)) (hu : ∀ r c k, r < t.rows → c < t.cols → k < t.chans → Survives (u.get r c k))
    (h : decodeBest t = decodeBest u) : ∀ r c k, r < t.rows → c < t.cols → k < t.chans → t.get r c k = u.get r c k := by
  intro r c k h1 h2 h3
  obtain ⟨-, p1⟩ := place asStringFloat (fun x c hc => (long_plain x c hc).1) t r k h1 h3
  obtain ⟨-, p2⟩ := place asStringFloat (fun x c hc => (long_plain x c hc).1) u r k (hr ▸ h1) (hk ▸ h3)
  have e : print asStringFloat t = print asStringFloat u := h
  rw [← e, ← hr, ← hk, p1] at p2
  unfold rowText at p2
  simp only [Option.some.injEq, List.cons_append, List.cons.injEq, true_and, List.append_cancel_right_eq] at p2
  have plain : ∀ v : Tensor (BitVec 32), ∀ s ∈ ((List.range v.cols).map fun c => v.get r c k).map asStringFloat, ∀ b ∈ s, b ≠ 44 := by
    intro v s hs b hb
    obtain ⟨x, -, rfl⟩ := List.mem_map.mp hs
    exact (long_plain x b hb).2.1
  have q := joined_inj _ _ (by simp [hc]) (plain t) (plain u) p2
  have g := congrArg (fun l => l[c]?) q
  simp only [List.getElem?_map, List.getElem?_range h2, List.getElem?_range (hc ▸ h2), Option.map_some, Option.some.injEq] at g
  have f1 := C101_partial _ (ht r c k h1 h2 h3)
  rw [g, C101_partial _ (hu r c k h1 h2 h3)] at f1
  exact (Option.some.inj f1).symm

/-- C158 is violated for small numbers: 2⁻¹⁴⁹ and 0 have the same text, also with 15 decimals. -/
theorem C158_violated :
    ∃ x y : BitVec 32, isFinite x = true ∧ isFinite y = true ∧ value x ≠ value y ∧
      decodeBest ⟨1, 1, 1, fun _ _ _ => x⟩ = decodeBest ⟨1, 1, 1, fun _ _ _ => y⟩ :=
  ⟨1#32, 0#32, by decide, by decide, by decide, by decide +kernel⟩

/-- Two rows, one channel: an empty line, `|0.000, 1.000|` and `|0.000, 1.000|`. -/
example : splitLines (printShort ⟨2, 2, 1, fun _ c _ => if c = 0 then 0 else 0x3F800000#32⟩) =
    [[], [124, 48, 46, 48, 48, 48, 44, 32, 49, 46, 48, 48, 48, 124], [124, 48, 46, 48, 48, 48, 44, 32, 49, 46, 48, 48, 48, 124]] := by
  decide +kernel

/-- One row, two channels: each number on a line of its own between lines with brackets. -/
example : splitLines (printShort ⟨1, 1, 2, fun _ _ k => if k = 0 then 0 else 0x3F800000#32⟩) =
    [[], [91], [91, 48, 46, 48, 48, 48, 93], [93], [91], [91, 49, 46, 48, 48, 48, 93], [93]] := by
  decide +kernel

/-- A tenth is read back from the text of a decoder. -/
example : Survives 0x3DCCCCCD#32 ∧ (splitLines (decodeBest ⟨1, 1, 1, fun _ _ _ => 0x3DCCCCCD#32⟩))[lineOf 1 1 0 0]? =
    some [91, 48, 46, 49, 48, 48, 48, 48, 48, 48, 48, 49, 52, 57, 48, 49, 49, 54, 93] := by
  refine ⟨by decide, by decide +kernel⟩

/-- 0.1 and the next float have different texts, because both are in the range. -/
example : decodeBest ⟨1, 1, 1, fun _ _ _ => 0x3DCCCCCD#32⟩ ≠ decodeBest ⟨1, 1, 1, fun _ _ _ => 0x3DCCCCCE#32⟩ := by
  intro h
  have s1 : Survives 0x3DCCCCCD#32 := by decide +kernel
  have s2 : Survives 0x3DCCCCCE#32 := by decide +kernel
  have e : (0x3DCCCCCD#32 : BitVec 32) = 0x3DCCCCCE#32 :=
    C158_injective ⟨1, 1, 1, fun _ _ _ => 0x3DCCCCCD#32⟩ ⟨1, 1, 1, fun _ _ _ => 0x3DCCCCCE#32⟩ rfl rfl rfl (fun _ _ _ _ _ _ => s1) (fun _ _ _ _ _ _ => s2) h
      0 0 0 Nat.one_pos Nat.one_pos Nat.one_pos
  exact absurd e (by decide)

end Verif.PrintTensor
