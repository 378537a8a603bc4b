import Verif.Model.TextCodec
import Mathlib.Data.List.Basic

/-!
C08. Escaping loses nothing: `decode d (encode d s) = s` for every string and every delimiter byte; the encoded form never
contains a line break. The third part ("the encoded form does not contain the delimiter") holds exactly for delimiters other than the
characters used by the escapes themselves; for `<`, `_`, `~`, `D`, `N`, `>` it is false (`C08_delimiter_violated`).
-/
namespace Verif.TextCodec

theorem decode_cons_ne (d c : UInt8) (s : Str) (h : c ≠ LT) : decode d (c :: s) = c :: decode d s := by
  match s with
  | [] => simp [decode]
  | [y] => simp [decode]
  | a :: b :: r =>
    conv_lhs => unfold decode
    simp only [if_neg h]

theorem decode_lt (d : UInt8) (s : Str) : decode d (LT :: US :: LT :: s) = LT :: decode d s := by
  conv_lhs => unfold decode
  simp

theorem decode_delim (d : UInt8) (s : Str) : decode d (LT :: TI :: D :: GT :: s) = d :: decode d s := by
  conv_lhs => unfold decode
  simp [show TI ≠ US by decide]

theorem decode_nl (d : UInt8) (s : Str) : decode d (LT :: TI :: N :: GT :: s) = NL :: decode d s := by
  conv_lhs => unfold decode
  simp [show TI ≠ US by decide, show N ≠ D by decide]

/-- Decoding the encoded form of any string with any delimiter returns the string. -/
theorem C08_round_trip (d : UInt8) (s : Str) : decode d (encode d s) = s := by
  induction s with
  | nil => rw [encode, decode]
  | cons c cs ih =>
    rw [encode, encodeChar]
    by_cases h1 : c = LT
    · subst h1
      rw [if_pos rfl]
      show decode d (LT :: US :: LT :: encode d cs) = _
      rw [decode_lt, ih]
    · rw [if_neg h1]
      by_cases h2 : c = d
      · subst h2
        rw [if_pos rfl]
        show decode c (LT :: TI :: D :: GT :: encode c cs) = _
        rw [decode_delim, ih]
      · rw [if_neg h2]
        by_cases h3 : c = NL
        · subst h3
          rw [if_pos rfl]
          show decode d (LT :: TI :: N :: GT :: encode d cs) = _
          rw [decode_nl, ih]
        · rw [if_neg h3, List.singleton_append, decode_cons_ne d c _ h1, ih]

/-- The encoded form never contains a line break. -/
theorem C08_no_newline (d : UInt8) (s : Str) : NL ∉ encode d s := by
  induction s with
  | nil => simp [encode]
  | cons c cs ih =>
    rw [encode, List.mem_append, not_or]
    refine ⟨?_, ih⟩
    rw [encodeChar]
    split
    · decide
    · split
      · decide
      · split
        · decide
        · rename_i h3; simpa using Ne.symm h3

/-- The encoded form never contains the delimiter, for every delimiter that is not one of the six escape characters. -/
theorem C08_no_delimiter_partial (d : UInt8) (hd : d ∉ [LT, US, TI, D, N, GT]) (s : Str) : d ∉ encode d s := by
  have hd' := hd
  simp only [List.mem_cons, List.not_mem_nil, or_false, not_or] at hd'
  obtain ⟨a, b, c', e, f, g⟩ := hd'
  induction s with
  | nil => simp [encode]
  | cons c cs ih =>
    rw [encode, List.mem_append, not_or]
    refine ⟨?_, ih⟩
    rw [encodeChar]
    split
    · simp [a, b]
    · split
      · simp [a, c', e, g]
      · split
        · simp [a, c', f, g]
        · rename_i h2 _; simpa using Ne.symm h2

/-- For the other six delimiters some string's encoded form contains the delimiter. -/
theorem C08_delimiter_violated (d : UInt8) (hd : d ∈ [LT, US, TI, D, N, GT]) : ∃ s, d ∈ encode d s := by
  refine ⟨[LT, d, NL], ?_⟩
  revert hd
  revert d
  decide +kernel

-- Non-vacuity: comma is an allowed delimiter; text that already looks like an escape survives.
example : (44 : UInt8) ∉ [LT, US, TI, D, N, GT] := by decide
example : encode 44 [LT, TI, D, GT, 44, NL] = [LT, US, LT, TI, D, GT, LT, TI, D, GT, LT, TI, N, GT] := by decide

end Verif.TextCodec
