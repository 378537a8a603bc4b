import Verif.Props.C15_Csv

/-!
# C15: which texts are left unquoted as numbers
-/
namespace Verif.Csv
open Verif.TextCodec (Str)

/-- The lower case of an ASCII letter. -/
def lowerByte (c : UInt8) : UInt8 := if 65 ≤ c ∧ c ≤ 90 then c + 32 else c

/-- A text that begins with a number. -/
def BeginsWithNumber (s : Str) : Prop :=
  ∃ sign body, s = sign ++ body ∧ (sign = [] ∨ sign = [45]) ∧
    ((∃ d t, body = d :: t ∧ 48 ≤ d ∧ d ≤ 57) ∨ (∃ d t, body = 46 :: d :: t ∧ 48 ≤ d ∧ d ≤ 57) ∨
     (∃ w t, body = w ++ t ∧ (w.map lowerByte = [105, 110, 102] ∨ w.map lowerByte = [110, 97, 110])))

theorem lowerByte_eq (n : Fin 256) :
    (lowerByte ⟨⟨n⟩⟩ = 105 ↔ (⟨⟨n⟩⟩ : UInt8) = 105 ∨ (⟨⟨n⟩⟩ : UInt8) = 73) ∧ (lowerByte ⟨⟨n⟩⟩ = 110 ↔ (⟨⟨n⟩⟩ : UInt8) = 110 ∨ (⟨⟨n⟩⟩ : UInt8) = 78) ∧
    (lowerByte ⟨⟨n⟩⟩ = 102 ↔ (⟨⟨n⟩⟩ : UInt8) = 102 ∨ (⟨⟨n⟩⟩ : UInt8) = 70) ∧ (lowerByte ⟨⟨n⟩⟩ = 97 ↔ (⟨⟨n⟩⟩ : UInt8) = 97 ∨ (⟨⟨n⟩⟩ : UInt8) = 65) := by
  revert n; decide +kernel

theorem lowerByte_iff (c : UInt8) :
    (lowerByte c = 105 ↔ c = 105 ∨ c = 73) ∧ (lowerByte c = 110 ↔ c = 110 ∨ c = 78) ∧ (lowerByte c = 102 ↔ c = 102 ∨ c = 70) ∧ (lowerByte c = 97 ↔ c = 97 ∨ c = 65) := by
  obtain ⟨⟨n⟩⟩ := c; exact lowerByte_eq n

/-- What is left unquoted as a number: exactly the texts that begin with one. -/
theorem C15_number (s : Str) : isFloat s = true ↔ BeginsWithNumber s := by
  have body : ∀ t : Str, (match t with
      | [] => false
      | c :: rest => isDigit c || (c = 46 && (match rest with | d :: _ => isDigit d | [] => false)) ||
          (match rest with
           | d :: e :: _ => ((c = 105 || c = 73) && (d = 110 || d = 78) && (e = 102 || e = 70)) ||
                            ((c = 110 || c = 78) && (d = 97 || d = 65) && (e = 110 || e = 78))
           | _ => false)) = true ↔
      ((∃ d u, t = d :: u ∧ 48 ≤ d ∧ d ≤ 57) ∨ (∃ d u, t = 46 :: d :: u ∧ 48 ≤ d ∧ d ≤ 57) ∨
       (∃ w u, t = w ++ u ∧ (w.map lowerByte = [105, 110, 102] ∨ w.map lowerByte = [110, 97, 110]))) := by
    intro t
    have word : (∃ w u, t = w ++ u ∧ (w.map lowerByte = [105, 110, 102] ∨ w.map lowerByte = [110, 97, 110])) ↔
        ∃ c d e u, t = c :: d :: e :: u ∧ ((lowerByte c = 105 ∧ lowerByte d = 110 ∧ lowerByte e = 102) ∨ (lowerByte c = 110 ∧ lowerByte d = 97 ∧ lowerByte e = 110)) := by
      constructor
      · rintro ⟨w, u, rfl, h⟩
        match w, h with
        | [], h => simp at h
        | [_], h => simp at h
        | [_, _], h => simp at h
        | [c, d, e], h => exact ⟨c, d, e, u, rfl, by simpa using h⟩
        | _ :: _ :: _ :: _ :: _, h => simp at h
      · rintro ⟨c, d, e, u, rfl, h⟩
        exact ⟨[c, d, e], u, rfl, by simpa using h⟩
    rw [word]
    match t with
    | [] => simp
    | [c] => simp [isDigit]
    | [c, d] => simp [isDigit]
    | c :: d :: e :: u =>
      simp [isDigit, lowerByte_iff, and_assoc, or_assoc]
  unfold BeginsWithNumber
  match s with
  | [] =>
    simp [isFloat]
  | c :: t =>
    by_cases hc : c = 45
    · subst hc
      unfold isFloat
      refine (body t).trans ⟨fun h => ⟨[45], t, rfl, Or.inr rfl, h⟩, ?_⟩
      rintro ⟨sign, b, hs, rfl | rfl, h⟩
      · simp at hs; subst hs
        exfalso
        revert h
        rw [← body]; cases t <;> simp [isDigit]; rename_i a b; cases b <;> simp
      · simp at hs; subst hs; exact h
    · have : isFloat (c :: t) = (match c :: t with
      | [] => false
      | c :: rest => isDigit c || (c = 46 && (match rest with | d :: _ => isDigit d | [] => false)) ||
          (match rest with
           | d :: e :: _ => ((c = 105 || c = 73) && (d = 110 || d = 78) && (e = 102 || e = 70)) ||
                            ((c = 110 || c = 78) && (d = 97 || d = 65) && (e = 110 || e = 78))
           | _ => false)) := by
        unfold isFloat
        split
        · rename_i h; exact absurd (List.cons.inj h).1 hc
        · rfl
      rw [this]
      refine (body (c :: t)).trans ⟨fun h => ⟨[], c :: t, rfl, Or.inl rfl, h⟩, ?_⟩
      rintro ⟨sign, b, hs, rfl | rfl, h⟩
      · simp at hs; subst hs; exact h
      · simp at hs; exact absurd hs.1 hc

/-- `-.5x` and `Info` begin with a number, `i1` and `-a` do not. -/
example : isFloat [45, 46, 53, 120] = true ∧ isFloat [73, 110, 102, 111] = true ∧ isFloat [105, 49] = false ∧ isFloat [45, 97] = false := by decide +kernel

end Verif.Csv
