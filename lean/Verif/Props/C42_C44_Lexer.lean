import Verif.Lemmas.LexerWords

/-!
C42: lexing tiles the source text with longest matches.
C43: lexing terminates on every source text.
C44: keywords are recognised only as whole words.
-/
namespace Verif.Lexer
open LexerSpec

/-- C42. Lexing succeeds with exactly those tokens that come from cutting the text into non-empty pieces, each the
longest token at its position and of the first kind among the longest, with the dropped kinds left out. -/
theorem C42_success (text : List Char) (tokens : List Token) :
    lexScript text = .success tokens ↔
      ∃ ps, Tiles kinds 0 text ps [] ∧
        tokens = (ps.filter fun p => !p.kind.skip).map fun p => ⟨p.kind.label, p.value, p.offset⟩ := by
  constructor
  · intro h
    obtain ⟨ps, rest, ht, hs⟩ := tiles_exists text.length 0 text (by omega)
    have h1 := (lexLoop_tiles ht []).1
    unfold lexScript lex at h
    rcases hs with rfl | hs
    · refine ⟨ps, ht, ?_⟩
      rw [h1] at h
      unfold lexLoop at h
      simp only [dite_true, List.nil_append, LexResult.success.injEq] at h
      rw [← h]; rfl
    · rw [h1, lexLoop_stuck _ _ _ hs] at h
      simp at h
  · rintro ⟨ps, ht, rfl⟩
    unfold lexScript lex
    rw [(lexLoop_tiles ht []).1]
    unfold lexLoop
    simp [tokensOf, tokenOf]

/-- C42. The pieces, dropped ones included, concatenate to the text. -/
theorem C42_concat (text : List Char) (ps : List Piece) (h : Tiles kinds 0 text ps []) :
    ps.flatMap (·.value) = text := by
  have := tiles_concat h
  simpa using this.symm

/-- C42. A syntax error is reported exactly when, after cutting off such pieces, a non-empty rest is left at the
reported position where no kind of token has a non-empty match. -/
theorem C42_error (text : List Char) (off : Nat) :
    lexScript text = .syntaxError off ↔
      ∃ ps rest, Tiles kinds 0 text ps rest ∧ rest ≠ [] ∧ off + rest.length = text.length ∧
        ∀ k ∈ kinds, ∀ n, k.len rest = some n → n = 0 := by
  constructor
  · intro h
    obtain ⟨ps, rest, ht, hs⟩ := tiles_exists text.length 0 text (by omega)
    obtain ⟨h1, h2⟩ := lexLoop_tiles ht []
    unfold lexScript lex at h
    rcases hs with rfl | hs
    · rw [h1] at h
      unfold lexLoop at h
      simp at h
    · rw [h1, lexLoop_stuck _ _ _ hs] at h
      simp only [Nat.zero_add, LexResult.syntaxError.injEq] at h
      exact ⟨ps, rest, ht, hs.1, by omega, hs.2⟩
  · rintro ⟨ps, rest, ht, hne, hoff, hs⟩
    obtain ⟨h1, h2⟩ := lexLoop_tiles ht []
    unfold lexScript lex
    rw [h1, lexLoop_stuck _ _ _ ⟨hne, hs⟩]
    congr 1
    omega

/-- Digits and dots: `1.2.3` is the number `1.2` followed by the number `.3`. -/
example : lexScript "limit 1.2.3".toList = .success
    [⟨"_limit", "limit".toList, 0⟩, ⟨"_number", "1.2".toList, 6⟩, ⟨"_number", ".3".toList, 9⟩] := by decide +kernel

example : lexScript "print *".toList = .syntaxError 6 := by decide +kernel

/-- C43. On every text the lexer finishes with tokens or with a syntax error. -/
theorem C43_terminates (text : List Char) :
    (∃ tokens, lexScript text = .success tokens) ∨ (∃ off, off < text.length ∧ lexScript text = .syntaxError off) := by
  obtain ⟨ps, rest, ht, hs⟩ := tiles_exists text.length 0 text (by omega)
  obtain ⟨h1, h2⟩ := lexLoop_tiles ht []
  rcases hs with rfl | hs
  · exact Or.inl ⟨_, (C42_success _ _).mpr ⟨ps, ht, rfl⟩⟩
  · have hp := List.length_pos_of_ne_nil hs.1
    refine Or.inr ⟨text.length - rest.length, by omega, (C42_error _ _).mpr ⟨ps, rest, ht, hs.1, by omega, hs.2⟩⟩

/-- The termination claim is not vacuous: a pattern that repeats a possibly empty match does loop forever in the
model (and in the code). -/
example : lex [⟨"bad", false, many (optional (charClass Char.isDigit))⟩] ['a'] = .diverges := by decide +kernel

/-- C44. At every position where an identifier starts and ends, the best kind takes exactly the whole identifier; it
is the reserved word's kind if the identifier is a reserved word (in upper or lower case), and the word kind otherwise. -/
theorem C44_identifier (w rest : List Char) (hw : IsIdentifier w) (he : EndsHere rest) (k : Kind) (n : Nat)
    (hb : Best kinds (w ++ rest) k n) : n = w.length ∧ k.label = identifierLabel w ∧ k.skip = false := by
  obtain ⟨k', hb', hl, hs⟩ := identifier_best w rest hw he
  obtain ⟨rfl, rfl⟩ := hb.unique hb'
  exact ⟨rfl, hl, hs⟩

/-- C44. A text that starts with an identifier is lexed with that whole identifier as its first token. -/
theorem C44_first_token (w rest : List Char) (hw : IsIdentifier w) (he : EndsHere rest) (tokens : List Token)
    (h : lexScript (w ++ rest) = .success tokens) :
    ∃ more, tokens = ⟨identifierLabel w, w, 0⟩ :: more := by
  obtain ⟨ps, ht, rfl⟩ := (C42_success _ _).mp h
  generalize htext : w ++ rest = text at ht
  cases ht with
  | done =>
    obtain ⟨c, t, rfl, -, -⟩ := hw
    simp at htext
  | piece _ k v more' _ ps' hv hb _ =>
    rw [← htext] at hb
    obtain ⟨hn, hl, hs⟩ := C44_identifier w rest hw he k v.length hb
    have hvw : v = w := (List.append_inj htext hn.symm).1.symm
    subst hvw
    refine ⟨(ps'.filter fun p => !p.kind.skip).map fun p => ⟨p.kind.label, p.value, p.offset⟩, ?_⟩
    simp [hs, hl]

/-- C44. An identifier on its own is one token: the keyword if it is a reserved word, a word otherwise. -/
theorem C44_whole (w : List Char) (hw : IsIdentifier w) :
    lexScript w = .success [⟨identifierLabel w, w, 0⟩] := by
  obtain ⟨k, hb, hl, hs⟩ := identifier_best w [] hw (by intro d t h; simp at h)
  have hne : w ≠ [] := by obtain ⟨c, t, rfl, -, -⟩ := hw; simp
  refine (C42_success _ _).mpr ⟨[⟨k, w, 0⟩], ?_, by simp [hl, hs]⟩
  have := Tiles.piece (ks := kinds) 0 k w [] [] [] hne hb (.done _ _)
  simpa using this

/-- Words that merely start with a keyword stay words; keywords are recognised in any case. -/
example : IsIdentifier "datasets_2".toList ∧ identifierLabel "datasets_2".toList = "_word" ∧
    identifierLabel "DataSets".toList = "_datasets" ∧ EndsHere " x".toList := by
  refine ⟨⟨'d', "atasets_2".toList, rfl, by decide, by decide⟩, by decide +kernel, by decide +kernel, ?_⟩
  intro d t h
  have : d = ' ' := by injection h with h1 _; exact h1.symm
  subst this; decide

end Verif.Lexer
