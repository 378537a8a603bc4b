import Verif.Lemmas.LexerSource
import Verif.Lemmas.ParserForms
import Mathlib.Data.List.Induction
import Verif.Props.C45_Parser

/-!
C83: every documented statement is parsed to exactly that statement, and a script to the sequence of its statements.
C46: quoted string literals denote exactly the quoted text.
-/
namespace Verif.Parser
open Lexer LexerSpec ScriptSpec
variable {F : Type} {stof : List Char → Option F}

theorem parseBlock_form (prog : List (List Tok × Stmt F)) : ∀ (fuel : Nat) (acc : List (Stmt F)),
    (∀ p ∈ prog, Writes stof p.1 p.2) → (prog.flatMap Prod.fst).length < fuel →
    parseBlock stof fuel acc (prog.flatMap Prod.fst) = .ok (acc ++ prog.map Prod.snd) [] := by
  induction prog with
  | nil =>
    intro fuel acc _ hf
    cases fuel with
    | zero => simp at hf
    | succ f => simp [parseBlock]
  | cons p prog ih =>
    intro fuel acc hw hf
    have hrest : Starts (prog.flatMap Prod.fst) := by
      cases prog with
      | nil => exact Or.inl rfl
      | cons p' prog => exact writes_starts (hw p' (by simp)) _
    obtain ⟨t, more, he, hp⟩ := statement_form (hw p (by simp)) _ hrest
    simp only [List.flatMap_cons, he, List.cons_append] at hf ⊢
    cases fuel with
    | zero => simp at hf
    | succ f =>
      unfold parseBlock
      rw [hp]
      simp only [R.bind]
      rw [ih f _ (fun p' h => hw p' (by simp [h])) (by simp at hf ⊢; omega)]
      simp

/-- C83 for tokens: a sequence of documented statements is parsed to exactly those statements. -/
theorem C83_tokens (prog : List (List Tok × Stmt F)) (h : ∀ p ∈ prog, Writes stof p.1 p.2) :
    parseTokens stof (prog.flatMap Prod.fst) = .program (prog.map Prod.snd) := by
  unfold parseTokens
  rw [parseBlock_form prog _ [] h (by omega)]
  rfl

/-- C83 for script text: the text of the tokens, with blanks between them, is parsed to exactly those statements. -/
theorem C83_source (prog : List (List Tok × Stmt F)) (h : ∀ p ∈ prog, Writes stof p.1 p.2)
    (hw : ∀ p ∈ prog, ∀ t ∈ p.1, Written t) :
    parseScript stof (source (prog.flatMap Prod.fst)) = .program (prog.map Prod.snd) := by
  obtain ⟨tokens, h1, h2⟩ := lex_source (prog.flatMap Prod.fst) (by
    intro t ht
    obtain ⟨p, hp, ht⟩ := List.mem_flatMap.mp ht
    exact hw p hp t ht)
  unfold parseScript
  rw [h1]
  simp only
  rw [h2, C83_tokens prog h]

/-- A number of values; enough for the examples. -/
def stofNat (v : List Char) : Option Nat := some v.length

/-- Statements of all kinds meet the hypotheses. -/
example : ∀ p ∈ ([([lower "help", lower "create"], .help (some "create".toList)),
    ([⟨"_print", "PRINT".toList⟩, lower "raw", ⟨"_word", "d".toList⟩, lower "limit", ⟨"_number", "12".toList⟩],
      .print "d".toList true (some 12)),
    ([lower "create", lower "task", lower "label", ⟨"_word", "t".toList⟩, lower "with", lower "goal", lower "speed",
      lower "using", ⟨"_word", "d".toList⟩],
      .createTask "label".toList "t".toList "speed".toList "d".toList []),
    ([lower "create", lower "dataset", ⟨"_word", "d".toList⟩, lower "with", lower "header", lower "with", lower "given",
      lower "number", ⟨"_word", "x".toList⟩, openParen, ⟨"_number", "2".toList⟩, closeParen, lower "at",
      ⟨"_number", "0".toList⟩, lower "using", ⟨"_word", "file".toList⟩, colon, slash, slash, ⟨"_word", "f".toList⟩],
      .createDataset "d".toList "file://f".toList true [⟨1, "given".toList, "number".toList, "x".toList, 1, 2, 1, 0, 2⟩]),
    ([lower "execute", lower "task", ⟨"_word", "t".toList⟩, lower "using", lower "input", openParen,
      ⟨"_word", "K".toList⟩, colon, ⟨"_string", "\"a\\\"b\"".toList⟩, comma, ⟨"_string", "'l'".toList⟩, colon, openBracket,
      ⟨"_number", "12".toList⟩, comma, ⟨"_word", "w".toList⟩, closeBracket, closeParen],
      .execute "t".toList [] [] [("k".toList, [.text "a\"b".toList]), ("l".toList, [.num 2, .text "w".toList])]),
    ([lower "exit"], .exit)] : List (List Tok × Stmt Nat)), Writes stofNat p.1 p.2 := by
  have kw : ∀ s ∈ ["help", "print", "create", "task", "dataset", "with", "using", "limit", "at", "execute", "input", "exit"],
      Keyword s (lower s) := by
    unfold Keyword lower; decide
  have wh : ∀ s ∈ ["0", "2", "12"], Whole ⟨"_number", s.toList⟩ (decimal s.toList) := by
    unfold Whole; decide +kernel
  simp only [List.forall_mem_cons, List.not_mem_nil, false_imp_iff, implies_true, and_true]
  refine ⟨.help _ _ (kw _ (by decide)), ?_, ?_, ?_, ?_, .exit _ (kw _ (by decide))⟩
  · exact .printLimit _ _ _ _ true 12 (by unfold Keyword; decide) (kw _ (by decide)) (wh "12" (by decide))
  · exact .createTask _ _ _ _ _ _ [_, _, _] _ _ (kw _ (by decide)) (kw _ (by decide))
      (.goal _ _ _ _ _ _ _ (kw _ (by decide)) (.done _ _)) (kw _ (by decide))
  · have hpath : ("file://f".toList) = "file".toList ++ "://".toList ++ [(⟨"_word", "f".toList⟩ : Tok)].flatMap (·.value) := by
      decide
    rw [hpath]
    exact .createDataset _ _ _ _ ⟨"_word", "file".toList⟩
      [lower "with", lower "header", lower "with", lower "given", lower "number", ⟨"_word", "x".toList⟩, openParen,
        ⟨"_number", "2".toList⟩, closeParen, lower "at", ⟨"_number", "0".toList⟩]
      [⟨"_word", "f".toList⟩] _ _ (kw _ (by decide)) (kw _ (by decide)) rfl
      (.header _ _ _ _ _ (kw _ (by decide))
        (.group 0 _ _ _ _ _ _ [openParen, ⟨"_number", "2".toList⟩, closeParen] [] 1 2 1 0 _ _ (kw _ (by decide))
          (Or.inl rfl) (.one _ _ (wh "2" (by decide))) (kw _ (by decide)) (wh "0" (by decide)) (by decide) (.done _)))
      (kw _ (by decide)) (by simp) (by simp [LocationPart])
  · exact .executeInput _ _ _ _ _ [] [⟨"_word", "K".toList⟩, colon, ⟨"_string", "\"a\\\"b\"".toList⟩, comma,
        ⟨"_string", "'l'".toList⟩, colon, openBracket, ⟨"_number", "12".toList⟩, comma, ⟨"_word", "w".toList⟩, closeBracket]
      _ _ (kw _ (by decide)) (kw _ (by decide)) rfl .none (kw _ (by decide)) (kw _ (by decide))
      (.more _ _ [_] _ _ _ (.word ⟨"_word", "K".toList⟩ rfl) (.single _ _ (.string '"' "a\"b".toList (by decide)))
        (.one _ _ _ _ (.string '\'' "l".toList (by decide))
          (.list [_, _, _] _ (.more _ _ _ _ (.number _ _ rfl rfl) (.one _ _ (.word _ rfl)))))
        (by decide))

/-- And such a script as text. -/
example : parseScript stofNat "help create PRINT raw d limit 12 exit ".toList =
    .program [.help (some "create".toList), .print "d".toList true (some 12), .exit] := by decide +kernel

/-- What `assign` does to the value of a key. -/
theorem assign_lookup {A B : Type} [DecidableEq A] (k : A) (v : B) (m : List (A × B)) (j : A) :
    ((assign k v m).find? fun p => p.1 = j).map Prod.snd = if j = k then some v else (m.find? fun p => p.1 = j).map Prod.snd := by
  induction m with
  | nil => by_cases h : j = k <;> simp [assign, h, Ne.symm, eq_comm]
  | cons p m ih =>
    rw [assign]
    by_cases hp : p.1 = k
    · rw [if_pos hp]
      by_cases h : j = k
      · simp [h]
      · have : ¬ k = j := fun e => h e.symm
        simp [h, this, hp]
    · rw [if_neg hp]
      by_cases h : p.1 = j
      · have : ¬ j = k := fun e => hp (h.trans e)
        simp [h, this]
      · simp only [List.find?_cons, h, decide_false]
        exact ih

/-- The inputs of `execute` may repeat a key (in upper or lower case); then the last value written for it counts. -/
theorem C83_repeated_inputs (ins rest : List Tok) (ps : List (List Char × List (Value F))) (h : Pairs stof ins ps) :
    ∃ m, parseInput stof (openParen :: ins ++ closeParen :: rest) = .ok m rest ∧
      ∀ key, (m.find? fun p => p.1 = key).map Prod.snd = (ps.reverse.find? fun p => p.1 = key).map Prod.snd := by
  refine ⟨ps.foldl (fun a p => assign p.1 p.2 a) [], ?_, fun key => ?_⟩
  · rw [List.cons_append, parseInput, if_neg (by decide), inputLoop_pairs h _ [] rest (by simp; omega)]
  · clear h
    induction ps using List.reverseRecOn with
    | nil => rfl
    | append_singleton ps p ih =>
      rw [List.foldl_append, List.foldl_cons, List.foldl_nil, assign_lookup, ih, List.reverse_append]
      by_cases hk : key = p.1
      · simp [hk]
      · have : ¬ p.1 = key := fun e => hk e.symm
        simp [hk, this]

example : Pairs stofNat [⟨"_word", "k".toList⟩, colon, ⟨"_number", "1".toList⟩, comma, ⟨"_word", "K".toList⟩, colon, ⟨"_number", "12".toList⟩]
    [("k".toList, [.num 1]), ("k".toList, [.num 2])] :=
  .more _ _ [_] _ _ _ (.word ⟨"_word", "k".toList⟩ rfl) (.single _ _ (.number _ _ rfl rfl))
    (.one _ _ _ _ (.word ⟨"_word", "K".toList⟩ rfl) (.single _ _ (.number _ _ rfl rfl)))

/-- C46. A quoted literal in a script denotes exactly the quoted text, for every text that does not end in a
backslash and both kinds of quotes. Missing: texts that end in a backslash, see `C46_violated`. -/
theorem C46_partial (q : Char) (hq : q = '"' ∨ q = '\'') (text task key : List Char) (h : Quotable text)
    (ht : IsIdentifier task) (htw : identifierLabel task = "_word")
    (hk : IsIdentifier key) (hkw : identifierLabel key = "_word") :
    parseScript stof ("execute task ".toList ++ task ++ " using input ( ".toList ++ key ++ " : ".toList ++ quote q text ++
        " ) ".toList) =
      .program [.execute task [] [] [(key.map Char.toLower, [.text text])]] := by
  have hq' : q ≠ '\\' := by rcases hq with rfl | rfl <;> decide
  have kw : ∀ s ∈ ["task", "using", "execute", "input"], Keyword s (lower s) := by
    unfold Keyword lower; decide
  have hsrc := C83_source (stof := stof) [([lower "execute", lower "task", ⟨"_word", task⟩, lower "using", lower "input",
      openParen, ⟨"_word", key⟩, colon, ⟨"_string", quote q text⟩, closeParen],
      .execute task [] [] [(key.map Char.toLower, [.text text])])]
    (by
      simp only [List.mem_singleton, forall_eq]
      exact .executeInput _ _ _ _ _ [] [⟨"_word", key⟩, colon, ⟨"_string", quote q text⟩] _ _ (kw _ (by decide))
        (kw _ (by decide)) rfl .none (kw _ (by decide)) (kw _ (by decide))
        (.one _ _ [_] _ (.word ⟨"_word", key⟩ rfl) (.single _ _ (.string q text hq'))))
    (by
      have hl : ∀ s ∈ ["task", "using", "execute", "input"], Written (lower s) := by
        intro s hs
        have e : lower s = ⟨identifierLabel s.toList, s.toList⟩ := by
          simp only [List.mem_cons, List.not_mem_nil, or_false] at hs
          rcases hs with rfl | rfl | rfl | rfl <;> decide +kernel
        rw [e]
        refine .identifier _ ?_
        simp only [List.mem_cons, List.not_mem_nil, or_false] at hs
        rcases hs with rfl | rfl | rfl | rfl <;> exact ⟨_, _, rfl, by decide, by decide⟩
      simp only [List.mem_singleton, forall_eq, List.forall_mem_cons]
      refine ⟨hl _ (by decide), hl _ (by decide), htw ▸ .identifier task ht, hl _ (by decide), hl _ (by decide),
        .symbol '(' _ (by decide), hkw ▸ .identifier key hk, .symbol ':' _ (by decide), .string q text hq h,
        .symbol ')' _ (by decide)⟩)
  have e : "execute task ".toList ++ task ++ " using input ( ".toList ++ key ++ " : ".toList ++ quote q text ++ " ) ".toList =
      source ([([lower "execute", lower "task", ⟨"_word", task⟩, lower "using", lower "input",
      openParen, ⟨"_word", key⟩, colon, ⟨"_string", quote q text⟩, closeParen],
      (.execute task [] [] [(key.map Char.toLower, [.text text])] : Stmt F))].flatMap Prod.fst) := by
    have h1 : "execute task ".toList = "execute".toList ++ ' ' :: "task".toList ++ [' '] := by decide
    have h2 : " using input ( ".toList = ' ' :: "using".toList ++ ' ' :: "input".toList ++ ' ' :: "(".toList ++ [' '] := by decide
    have h3 : " : ".toList = ' ' :: ":".toList ++ [' '] := by decide
    have h4 : " ) ".toList = ' ' :: ")".toList ++ [' '] := by decide
    rw [h1, h2, h3, h4]
    simp only [source, lower, openParen, closeParen, colon, List.flatMap_cons, List.flatMap_nil, List.append_nil,
      List.append_assoc, List.cons_append, List.nil_append]
  rw [e, hsrc]
  rfl

/-- A text full of quotes and backslashes. -/
example : Quotable "a\\\"b\\\\\"'c".toList := by unfold Quotable; decide

/-- C46 fails for every text that ends in a backslash: between quotes it is not recognised as a string. -/
theorem C46_violated :
    (∀ q text, (q = '"' ∨ q = '\'') → stringLen (quote q (text ++ ['\\'])) = none) ∧
    parseScript stofNat ("execute task t using input ( k : ".toList ++ quote '"' "C:\\".toList ++ " ) ".toList) =
      .errorMessage := by
  constructor
  · intro q text hq
    have hq' : q ≠ '\\' := by rcases hq with rfl | rfl <;> decide
    have h := closeLen_backslash q hq' text
    rcases hq with rfl | rfl <;> simp [quote, stringLen, h]
  · decide +kernel

end Verif.Parser
