import Verif.Props.C155_VariantText
import Verif.Props.C46_C83_Grammar

/-!
C155, from the text of the script: a plain number written as an input of `execute task` reaches the encoder as a value with the same text.
-/
namespace Verif.VariantText
open Verif.TextCodec Verif.Decimal Verif.Parser Verif.LexerSpec Verif.ScriptSpec

/-- The bytes of a text as characters; scripts are read byte by byte. -/
def chars (s : Str) : List Char := s.map fun b => Char.ofNat b.toNat
def bytes (v : List Char) : Str := v.map fun c => UInt8.ofNat c.toNat

/-- The parser's `stof`. -/
def stofText (v : List Char) : Option (BitVec 32) := stof (bytes v)

/-- What the statement hands to the encoder. -/
def variantOf : Value (BitVec 32) → Variant
  | .num x => .number x
  | .text v => .text (bytes v)

theorem byte_char : ∀ i : Fin 256, UInt8.ofNat (Char.ofNat (UInt8.ofNat i.val).toNat).toNat = UInt8.ofNat i.val ∧
    (Csv.isDigit (UInt8.ofNat i.val) = true → (Char.ofNat (UInt8.ofNat i.val).toNat).isDigit = true) := by decide +kernel

theorem byte_char' (b : UInt8) : UInt8.ofNat (Char.ofNat b.toNat).toNat = b ∧ (Csv.isDigit b = true → (Char.ofNat b.toNat).isDigit = true) := by
  have h := byte_char ⟨b.toNat, b.toNat_lt⟩
  rw [UInt8.ofNat_toNat] at h
  exact h

theorem bytes_chars (s : Str) : bytes (chars s) = s := by
  unfold bytes chars
  rw [List.map_map]
  conv_rhs => rw [← List.map_id s]
  exact List.map_congr_left fun b _ => (byte_char' b).1

theorem chars_digits (s : Str) (h : IsDigits s) : ∀ c ∈ chars s, c.isDigit = true := by
  intro c hc
  obtain ⟨b, hb, rfl⟩ := List.mem_map.mp hc
  exact (byte_char' b).2 (h b hb)

/-- A number without exponent is one token. -/
theorem number_decimal (n k : Nat) : IsNumber (chars (decimal n k)) := by
  obtain ⟨-, h2, h3⟩ := dec_spec (n / 10 ^ k)
  unfold decimal
  by_cases hk : k = 0
  · left
    rw [if_pos hk, List.append_nil]
    exact ⟨by unfold chars; simpa using h3, chars_digits _ h2⟩
  · right
    rw [if_neg hk]
    exact ⟨chars (dec (n / 10 ^ k)), chars (padded k (n % 10 ^ k)), by simp [chars], chars_digits _ h2, chars_digits _ (padded_spec _ _).1⟩

/-- C155 from the text of the script, restricted to plain numbers: the statement gets a single value for the column, and its text is the number as it was written. Missing:
other numbers, see `C155_violated`. -/
theorem C155_script_partial (n k : Nat) (h : Plain n k) (task key : List Char) (ht : IsIdentifier task) (htw : identifierLabel task = "_word")
    (hk : IsIdentifier key) (hkw : identifierLabel key = "_word") :
    ∃ v, parseScript stofText ("execute task ".toList ++ task ++ " using input ( ".toList ++ key ++ " : ".toList ++ chars (decimal n k) ++ " ) ".toList) =
        .program [.execute task [] [] [(key.map Char.toLower, [v])]] ∧
      (variantOf v).toText = decimal n k := by
  obtain ⟨v, h1, h2⟩ := decimal_token n k h
  unfold numberToken at h1
  obtain ⟨x, hx, rfl⟩ := Option.map_eq_some_iff.mp h1
  have hst : stofText (chars (decimal n k)) = some x := by unfold stofText; rw [bytes_chars]; exact hx
  refine ⟨.num x, ?_, h2⟩
  have kw : ∀ s ∈ ["task", "using", "execute", "input"], Keyword s (lower s) := by
    unfold Keyword lower; decide
  have hsrc := C83_source (stof := stofText) [([lower "execute", lower "task", ⟨"_word", task⟩, lower "using", lower "input",
      openParen, ⟨"_word", key⟩, colon, ⟨"_number", chars (decimal n k)⟩, closeParen],
      .execute task [] [] [(key.map Char.toLower, [.num x])])]
    (by
      simp only [List.mem_singleton, forall_eq]
      exact .executeInput _ _ _ _ _ [] [⟨"_word", key⟩, colon, ⟨"_number", chars (decimal n k)⟩] _ _ (kw _ (by decide))
        (kw _ (by decide)) rfl .none (kw _ (by decide)) (kw _ (by decide))
        (.one _ _ [_] _ (.word ⟨"_word", key⟩ rfl) (.single _ _ (.number _ _ rfl hst))))
    (by
      have hl : ∀ s ∈ ["task", "using", "execute", "input"], Written (lower s) := by
        intro s hs
        have e : lower s = ⟨identifierLabel s.toList, s.toList⟩ := by
          simp only [List.mem_cons, List.not_mem_nil, or_false] at hs
          rcases hs with rfl | rfl | rfl | rfl <;> decide +kernel
        rw [e]
        refine .identifier _ ?_
        simp only [List.mem_cons, List.not_mem_nil, or_false] at hs
        rcases hs with rfl | rfl | rfl | rfl <;> exact ⟨_, _, rfl, by decide, by decide⟩
      simp only [List.mem_singleton, forall_eq, List.forall_mem_cons]
      refine ⟨hl _ (by decide), hl _ (by decide), htw ▸ .identifier task ht, hl _ (by decide), hl _ (by decide),
        .symbol '(' _ (by decide), hkw ▸ .identifier key hk, .symbol ':' _ (by decide), .number _ (number_decimal n k),
        .symbol ')' _ (by decide)⟩)
  have e : "execute task ".toList ++ task ++ " using input ( ".toList ++ key ++ " : ".toList ++ chars (decimal n k) ++ " ) ".toList =
      source ([([lower "execute", lower "task", ⟨"_word", task⟩, lower "using", lower "input",
      openParen, ⟨"_word", key⟩, colon, ⟨"_number", chars (decimal n k)⟩, closeParen],
      (.execute task [] [] [(key.map Char.toLower, [.num x])] : Stmt (BitVec 32)))].flatMap Prod.fst) := by
    have h1 : "execute task ".toList = "execute".toList ++ ' ' :: "task".toList ++ [' '] := by decide
    have h2 : " using input ( ".toList = ' ' :: "using".toList ++ ' ' :: "input".toList ++ ' ' :: "(".toList ++ [' '] := by decide
    have h3 : " : ".toList = ' ' :: ":".toList ++ [' '] := by decide
    have h4 : " ) ".toList = ' ' :: ")".toList ++ [' '] := by decide
    rw [h1, h2, h3, h4]
    simp only [source, lower, openParen, closeParen, colon, List.flatMap_cons, List.flatMap_nil, List.append_nil,
      List.append_assoc, List.cons_append, List.nil_append]
  rw [e, hsrc]
  rfl

/-- The script that the theorem is about, for the number 0.25. -/
example : Plain 25 2 ∧ "execute task ".toList ++ "t".toList ++ " using input ( ".toList ++ "Size".toList ++ " : ".toList ++ chars (decimal 25 2) ++ " ) ".toList =
    "execute task t using input ( Size : 0.25 ) ".toList ∧ IsIdentifier "Size".toList ∧ identifierLabel "Size".toList = "_word" :=
  ⟨by decide, by decide +kernel, ⟨_, _, rfl, by decide, by decide⟩, by decide +kernel⟩

end Verif.VariantText
