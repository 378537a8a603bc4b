import Verif.Lemmas.LexerWords
import Verif.Props.C42_C44_Lexer
import Verif.Spec.Script

/-! Helper lemmas: written tokens are lexed back. -/
namespace Verif.Lexer
open LexerSpec ScriptSpec

theorem best_exists (r : List Char) (k : Kind) (n : Nat) (hk : k ∈ kinds) (h : k.len r = some n) :
    ∃ k' n', Best kinds r k' n' := by
  obtain ⟨res, h1, h2⟩ := findLongest_table r
  cases res with
  | none => rw [h2 k hk] at h; simp at h
  | some pn => obtain ⟨p, m⟩ := pn; obtain ⟨k', -, hb⟩ := h2; exact ⟨k', m, hb⟩

theorem fixedLen_head (s : String) (a : Char) (t : List Char) (hs : s.toList = a :: t) (c : Char) (r : List Char)
    (n : Nat) (h : fixedLen s (c :: r) = some n) : c.toLower = a ∧ n = s.length := by
  have hlen : s.length = t.length + 1 := by rw [← String.length_toList, hs]; rfl
  unfold fixedLen at h
  split at h
  · rename_i he
    rw [hlen, hs] at he
    simp only [List.take_succ_cons, List.map_cons, List.cons.injEq] at he
    exact ⟨he.1, by simpa using h.symm⟩
  · simp at h

theorem fixedLen_single (s : String) (a : Char) (hs : s.toList = [a]) (ha : a.isAlpha = false) (r : List Char) :
    fixedLen s (a :: r) = some 1 := by
  have hlen : s.length = 1 := by rw [← String.length_toList, hs]; rfl
  unfold fixedLen
  rw [hlen, hs, if_pos]
  simp only [List.take_succ_cons, List.take_zero, List.map_cons, List.map_nil, List.cons.injEq, and_true]
  rw [toLower_symbol a a ha]

/-- A reserved word cannot start with a character that is not a letter. -/
theorem reserved_head (s : String) (hs : s ∈ reserved) (c : Char) (hc : c.isAlpha = false) (r : List Char) :
    fixedLen s (c :: r) = none := by
  have hall : ∀ s ∈ reserved, ∃ a t, s.toList = a :: t ∧ a.isAlpha = true := by
    intro s hs
    have h1 : ∀ s ∈ reserved, (s.toList.head?.map Char.isAlpha) = some true := by decide +kernel
    have := h1 s hs
    cases hl : s.toList with
    | nil => rw [hl] at this; simp at this
    | cons a t => rw [hl] at this; exact ⟨a, t, rfl, by simpa using this⟩
  obtain ⟨a, t, he, ha⟩ := hall s hs
  cases h : fixedLen s (c :: r) with
  | none => rfl
  | some n =>
    have := (fixedLen_head s a t he c r n h).1
    have hcu : ¬ c.isUpper = true := by
      intro hu; simp [Char.isAlpha, hu] at hc
    rw [toLower_not_upper c hcu] at this
    rw [this, ha] at hc; simp at hc

/-- Membership in the table, by cases. -/
theorem kinds_cases (k : Kind) (h : k ∈ kinds) :
    (∃ s ∈ reserved, k = ⟨"_" ++ s, false, fixedLen s⟩) ∨ k = ⟨"_comment", true, commentLen⟩ ∨
    k = ⟨"_string", false, stringLen⟩ ∨ k = ⟨"_number", false, numberLen⟩ ∨ k = ⟨"_word", false, wordLen⟩ ∨
    k ∈ symbolKinds := by
  have hsplit : kinds = reserved.map (fun k => (⟨"_" ++ k, false, fixedLen k⟩ : Kind)) ++
      ⟨"_comment", true, commentLen⟩ :: ⟨"_string", false, stringLen⟩ :: ⟨"_number", false, numberLen⟩ ::
      ⟨"_word", false, wordLen⟩ :: symbolKinds := by
    unfold kinds symbolKinds; rfl
  rw [hsplit] at h
  simp only [List.mem_append, List.mem_map, List.mem_cons] at h
  rcases h with ⟨s, hs, rfl⟩ | h
  · exact Or.inl ⟨s, hs, rfl⟩
  · exact Or.inr h

/-- The symbol of each symbol kind. -/
def symbolChars : List (Char × Kind) :=
  [('(', ⟨"_open_parenthesis", false, fixedLen "("⟩), (')', ⟨"_close_parenthesis", false, fixedLen ")"⟩),
   ('[', ⟨"_open_bracket", false, fixedLen "["⟩), (']', ⟨"_close_bracket", false, fixedLen "]"⟩),
   ('=', ⟨"_equal", false, fixedLen "="⟩), (':', ⟨"_colon", false, fixedLen ":"⟩), ('/', ⟨"_slash", false, fixedLen "/"⟩),
   ('.', ⟨"_dot", false, fixedLen "."⟩), ('%', ⟨"_percent", false, fixedLen "%"⟩), ('\\', ⟨"_backslash", false, fixedLen "\\"⟩),
   ('"', ⟨"_double_quote", false, fixedLen "\""⟩), ('\'', ⟨"_single_quote", false, fixedLen "'"⟩),
   (',', ⟨"_comma", false, fixedLen ","⟩),
   ('_', ⟨"_underscore", false, fixedLen "_"⟩),
   ('\n', ⟨"_newline", true, fixedLen "\n"⟩), ('\t', ⟨"_tab", true, fixedLen "\t"⟩), ('\r', ⟨"_return", true, fixedLen "\r"⟩),
   (' ', ⟨"_space", true, fixedLen " "⟩)]

theorem symbolKinds_cases (k : Kind) (h : k ∈ symbolKinds) (c : Char) (r : List Char) (n : Nat)
    (hn : k.len (c :: r) = some n) : (c, k) ∈ symbolChars ∧ n = 1 := by
  simp only [symbolKinds, List.mem_cons, List.not_mem_nil, or_false] at h
  rcases h with rfl | rfl | rfl | rfl | rfl | rfl | rfl | rfl | rfl | rfl | rfl | rfl | rfl | rfl | rfl | rfl | rfl | rfl <;>
  · obtain ⟨h1, h2⟩ := fixedLen_head _ _ _ rfl c r n hn
    rw [toLower_symbol _ _ (by decide)] at h1
    subst h1
    exact ⟨by simp [symbolChars]; rfl, h2⟩

/-- A character that starts no word, number, comment or string. -/
structure Plain (c : Char) : Prop where
  alpha : c.isAlpha = false
  digit : c.isDigit = false
  dot : c ≠ '.'
  hash : c ≠ '#'
  dq : c ≠ '"'
  sq : c ≠ '\''

theorem plain_best (c : Char) (hc : Plain c) (r : List Char) (k : Kind) (n : Nat) (hb : Best kinds (c :: r) k n) :
    n = 0 ∨ ((c, k) ∈ symbolChars ∧ n = 1) := by
  obtain ⟨hk, hn⟩ := hb.mem
  rcases kinds_cases k hk with ⟨s, hs, rfl⟩ | rfl | rfl | rfl | rfl | h
  · simp only [reserved_head s hs c hc.alpha r] at hn; simp at hn
  · simp [commentLen, hc.hash] at hn
  · simp [stringLen, hc.dq, hc.sq] at hn
  · simp [numberLen, hc.digit, hc.dot] at hn; exact Or.inl hn.symm
  · simp [wordLen, hc.alpha] at hn
  · exact Or.inr (symbolKinds_cases k h c r n hn)

/-- A plain character of the table is a token by itself, whatever follows. -/
theorem plain_token (c : Char) (hc : Plain c) (k : Kind) (hmem : k ∈ kinds) (r : List Char)
    (hlen : k.len (c :: r) = some 1)
    (huniq : ∀ k', (c, k') ∈ symbolChars → k' = k) : Best kinds (c :: r) k 1 := by
  obtain ⟨k', n', hb⟩ := best_exists (c :: r) k 1 hmem hlen
  have hmax := hb.max k hmem 1 hlen
  rcases plain_best c hc r k' n' hb with h | ⟨h1, h2⟩
  · omega
  · rw [huniq k' h1, h2] at hb; exact hb

/-- The token is lexed back when a blank follows. -/
def Lexable (t : Parser.Tok) : Prop :=
  t.value ≠ [] ∧ ∃ k : Kind, k.label = t.label ∧ k.skip = false ∧
    ∀ rest, Best kinds (t.value ++ ' ' :: rest) k t.value.length

theorem space_best (r : List Char) : Best kinds (' ' :: r) ⟨"_space", true, fixedLen " "⟩ 1 := by
  apply plain_token
  · exact ⟨by decide, by decide, by decide, by decide, by decide, by decide⟩
  · simp [kinds]
  · exact fixedLen_single " " ' ' rfl (by decide) r
  · intro k' h; simpa [symbolChars] using h

theorem lexable_symbol (c : Char) (label : String) (h : (c, label) ∈ symbols) : Lexable ⟨label, [c]⟩ := by
  refine ⟨by simp, ⟨label, false, fixedLen (String.singleton c)⟩, rfl, rfl, fun rest => ?_⟩
  simp only [symbols, List.mem_cons, List.not_mem_nil, or_false, Prod.mk.injEq] at h
  rcases h with ⟨rfl, rfl⟩ | ⟨rfl, rfl⟩ | ⟨rfl, rfl⟩ | ⟨rfl, rfl⟩ | ⟨rfl, rfl⟩ | ⟨rfl, rfl⟩ | ⟨rfl, rfl⟩ | ⟨rfl, rfl⟩ |
    ⟨rfl, rfl⟩ | ⟨rfl, rfl⟩ | ⟨rfl, rfl⟩ <;>
  · apply plain_token
    · exact ⟨by decide, by decide, by decide, by decide, by decide, by decide⟩
    · simp [kinds]
    · dsimp only
      refine fixedLen_single _ _ ?_ ?_ _
      · rfl
      · decide
    · intro k' h; simpa [symbolChars] using h

theorem lexable_identifier (w : List Char) (hw : IsIdentifier w) : Lexable ⟨identifierLabel w, w⟩ := by
  have hne : w ≠ [] := by obtain ⟨c, t, rfl, -, -⟩ := hw; simp
  have hend : ∀ rest, EndsHere (' ' :: rest) := by
    intro rest d t h
    simp only [List.cons.injEq] at h
    rw [← h.1]; decide
  obtain ⟨k, hb, hl, hs⟩ := identifier_best w (' ' :: []) hw (hend [])
  refine ⟨hne, k, hl, hs, fun rest => ?_⟩
  obtain ⟨k', hb', hl', hs'⟩ := identifier_best w (' ' :: rest) hw (hend rest)
  have : k' = k := by
    -- equal labels: both are the reserved word's kind or both the word kind
    obtain ⟨hk, hn⟩ := hb.mem
    obtain ⟨hk', hn'⟩ := hb'.mem
    have hsym := symbols_identifier w (' ' :: []) hw
    have hsym' := symbols_identifier w (' ' :: rest) hw
    obtain ⟨m1, m2, m3⟩ := middle_identifier w (' ' :: []) hw
    obtain ⟨n1, n2, n3⟩ := middle_identifier w (' ' :: rest) hw
    have hpos := List.length_pos_of_ne_nil hne
    have hone : ∀ (k : Kind) (rest : List Char), k ∈ kinds → k.len (w ++ ' ' :: rest) = some w.length →
        (∃ s ∈ reserved, k = ⟨"_" ++ s, false, fixedLen s⟩ ∧ String.ofList (w.map Char.toLower) = s) ∨
          k = ⟨"_word", false, wordLen⟩ := by
      intro k rest hk hn
      obtain ⟨m1, m2, m3⟩ := middle_identifier w (' ' :: rest) hw
      rcases kinds_cases k hk with ⟨s, hs, rfl⟩ | rfl | rfl | rfl | rfl | h
      · exact Or.inl ⟨s, hs, rfl, (fixedLen_identifier s hs w _ hw (hend rest) _ hn).2 rfl⟩
      · simp [m1] at hn
      · simp [m2] at hn
      · simp [m3] at hn; omega
      · exact Or.inr rfl
      · rw [symbols_identifier w _ hw k h] at hn; simp at hn
    have hnw : ∀ s ∈ reserved, "_" ++ s ≠ "_word" := by decide +kernel
    rcases hone k [] hk hn with ⟨s, hs1, rfl, h1⟩ | rfl <;> rcases hone k' rest hk' hn' with ⟨s', hs2, rfl, h2⟩ | rfl
    · rw [← h1, ← h2]
    · rw [← hl'] at hl; exact (hnw s hs1 hl).elim
    · rw [← hl'] at hl; exact (hnw s' hs2 hl.symm).elim
    · rfl
  rw [this] at hb'; exact hb'

theorem isDigit_iff (c : Char) : c.isDigit = true ↔ 48 ≤ c.toNat ∧ c.toNat ≤ 57 := by
  simp [Char.isDigit, UInt32.le_iff_toNat_le]

theorem isDigit_not_alpha (c : Char) (h : c.isDigit = true) : c.isAlpha = false := by
  by_contra ha
  rw [Bool.not_eq_false, isAlpha_iff] at ha
  rw [isDigit_iff] at h
  omega

theorem takeWhile_all (p : Char → Bool) (a r : List Char) (h : ∀ c ∈ a, p c = true) (c : Char) (hc : p c = false) :
    (a ++ c :: r).takeWhile p = a ∧ (a ++ c :: r).dropWhile p = c :: r := by
  rw [List.takeWhile_append_of_pos h, List.dropWhile_append_of_pos h]
  simp [hc]

theorem numberLen_number (v : List Char) (hv : IsNumber v) (rest : List Char) :
    numberLen (v ++ ' ' :: rest) = some v.length := by
  unfold numberLen
  rcases hv with ⟨-, hd⟩ | ⟨a, b, rfl, ha, hb⟩
  · obtain ⟨h1, h2⟩ := takeWhile_all Char.isDigit v rest hd ' ' (by decide)
    simp [h1, h2]
  · obtain ⟨h1, h2⟩ := takeWhile_all Char.isDigit a (b ++ ' ' :: rest) ha '.' (by decide)
    obtain ⟨h3, -⟩ := takeWhile_all Char.isDigit b rest hb ' ' (by decide)
    rw [List.append_assoc, List.cons_append]
    simp [h1, h2, h3]; omega

theorem number_head (v : List Char) (hv : IsNumber v) : ∃ c t, v = c :: t ∧ (c.isDigit = true ∨ c = '.') := by
  rcases hv with ⟨hne, hd⟩ | ⟨a, b, rfl, ha, hb⟩
  · cases v with
    | nil => exact (hne rfl).elim
    | cons c t => exact ⟨c, t, rfl, Or.inl (hd c (by simp))⟩
  · cases a with
    | nil => exact ⟨'.', b, rfl, Or.inr rfl⟩
    | cons c t => exact ⟨c, t ++ '.' :: b, rfl, Or.inl (ha c (by simp))⟩

theorem lexable_number (v : List Char) (hv : IsNumber v) : Lexable ⟨"_number", v⟩ := by
  obtain ⟨c, t, hct, hc⟩ := number_head v hv
  have halpha : c.isAlpha = false := by
    rcases hc with h | rfl
    · exact isDigit_not_alpha c h
    · decide
  have hh : c ≠ '#' ∧ c ≠ '"' ∧ c ≠ '\'' := by
    rcases hc with h | rfl
    · refine ⟨?_, ?_, ?_⟩ <;> (rintro rfl; revert h; decide)
    · decide
  refine ⟨by simp [hct], ⟨"_number", false, numberLen⟩, rfl, rfl, fun rest => ?_⟩
  have hlen := numberLen_number v hv rest
  have hpos : 0 < v.length := by simp [hct]
  have hsplit : kinds = (reserved.map (fun k => (⟨"_" ++ k, false, fixedLen k⟩ : Kind)) ++
      [⟨"_comment", true, commentLen⟩, ⟨"_string", false, stringLen⟩]) ++
      ⟨"_number", false, numberLen⟩ :: ⟨"_word", false, wordLen⟩ :: symbolKinds := by
    unfold kinds symbolKinds; rfl
  refine ⟨_, _, hsplit, hlen, ?_, ?_⟩
  · intro k hk m hm
    rw [show (⟨"_number", v⟩ : Parser.Tok).value = v from rfl, hct] at hm
    simp only [List.mem_append, List.mem_map, List.mem_cons, List.not_mem_nil, or_false] at hk
    rcases hk with ⟨s, hs, rfl⟩ | rfl | rfl
    · simp only [List.cons_append, reserved_head s hs c halpha] at hm; simp at hm
    · simp [commentLen, hh.1] at hm
    · simp [stringLen, hh.2.1, hh.2.2] at hm
  · intro k hk m hm
    rw [show (⟨"_number", v⟩ : Parser.Tok).value = v from rfl, hct] at hm
    simp only [List.mem_cons] at hk
    rcases hk with rfl | hk
    · simp [wordLen, halpha] at hm
    · have := (symbolKinds_cases k hk c _ m hm).2
      simp only; omega

/-! ### Strings -/

theorem escape_head (q : Char) (hq : q ≠ '\\') (text r : List Char) (h : text ≠ []) :
    ∃ d t, escape q text ++ r = d :: t ∧ d ≠ q := by
  cases text with
  | nil => exact (h rfl).elim
  | cons c t =>
    by_cases hc : c = q
    · exact ⟨'\\', q :: escape q t ++ r, by simp [escape, hc], Ne.symm hq⟩
    · exact ⟨c, escape q t ++ r, by simp [escape, hc], hc⟩

theorem closeLen_escape (q : Char) (hq : q ≠ '\\') (rest : List Char) : ∀ text : List Char, Quotable text →
    closeLen q (escape q text ++ q :: rest) = some ((escape q text).length + 1) := by
  intro text
  induction text with
  | nil =>
    intro _
    cases rest <;> simp [escape, closeLen, hq]
  | cons c t ih =>
    intro hqt
    have hcons : escape q (c :: t) = (if c = q then ['\\', q] else [c]) ++ escape q t := by simp [escape]
    have htl : t ≠ [] → Quotable t := by
      intro hne h
      apply hqt
      cases t with
      | nil => exact (hne rfl).elim
      | cons d u => simpa [List.getLast?_cons_cons] using h
    by_cases hc : c = q
    · rw [hcons, if_pos hc]
      have ht : Quotable t := by
        by_cases hne : t = []
        · subst hne; simp [Quotable]
        · exact htl hne
      simp [closeLen, ih ht]; omega
    · rw [hcons, if_neg hc]
      by_cases hne : t = []
      · subst hne
        have hcb : c ≠ '\\' := by
          rintro rfl; exact hqt rfl
        cases rest <;> simp [escape, closeLen, hc, hcb, hq]
      · obtain ⟨d, u, hd, hdq⟩ := escape_head q hq t (q :: rest) hne
        have ih' := ih (htl hne)
        rw [hd] at ih'
        simp only [List.cons_append, List.nil_append, hd]
        rw [closeLen, if_neg (by rintro ⟨-, h⟩; exact hdq h), if_neg hc, ih']
        simp; omega

theorem closeLen_backslash (q : Char) (hq : q ≠ '\\') : ∀ text : List Char,
    closeLen q (escape q (text ++ ['\\']) ++ [q]) = none := by
  intro text
  induction text with
  | nil => simp [escape, closeLen, Ne.symm hq]
  | cons c t ih =>
    have hcons : escape q (c :: t ++ ['\\']) = (if c = q then ['\\', q] else [c]) ++ escape q (t ++ ['\\']) := by
      simp [escape]
    rw [hcons]
    by_cases hc : c = q
    · rw [if_pos hc]; simp [closeLen, ih]
    · rw [if_neg hc]
      obtain ⟨d, u, hd, hdq⟩ := escape_head q hq (t ++ ['\\']) [q] (by simp)
      rw [hd] at ih
      simp only [List.cons_append, List.nil_append, hd]
      rw [closeLen, if_neg (by rintro ⟨-, h⟩; exact hdq h), if_neg hc, ih]
      rfl

theorem stringLen_quote (q : Char) (hq : q = '"' ∨ q = '\'') (text rest : List Char) (h : Quotable text) :
    stringLen (quote q text ++ rest) = some (quote q text).length := by
  have hb : q ≠ '\\' := by rcases hq with rfl | rfl <;> decide
  have hc := closeLen_escape q hb rest text h
  have hcat : quote q text ++ rest = q :: (escape q text ++ q :: rest) := by simp [quote]
  have hl : (quote q text).length = 1 + ((escape q text).length + 1) := by simp [quote]; omega
  rw [hcat, hl]
  rcases hq with rfl | rfl <;> simp [stringLen, hc]

theorem string_best (q : Char) (hq : q = '"' ∨ q = '\'') (text rest : List Char) (h : Quotable text) :
    Best kinds (quote q text ++ rest) ⟨"_string", false, stringLen⟩ (quote q text).length := by
  have hsplit : kinds = (reserved.map (fun k => (⟨"_" ++ k, false, fixedLen k⟩ : Kind)) ++
      [⟨"_comment", true, commentLen⟩]) ++
      ⟨"_string", false, stringLen⟩ :: ⟨"_number", false, numberLen⟩ :: ⟨"_word", false, wordLen⟩ :: symbolKinds := by
    unfold kinds symbolKinds; rfl
  have halpha : q.isAlpha = false := by rcases hq with rfl | rfl <;> decide
  have hcat : quote q text ++ rest = q :: (escape q text ++ q :: rest) := by simp [quote]
  have hlen2 : 2 ≤ (quote q text).length := by simp [quote]
  refine ⟨_, _, hsplit, stringLen_quote q hq text rest h, ?_, ?_⟩
  · intro k hk m hm
    rw [hcat] at hm
    simp only [List.mem_append, List.mem_map, List.mem_cons, List.not_mem_nil, or_false] at hk
    rcases hk with ⟨s, hs, rfl⟩ | rfl
    · simp only [reserved_head s hs q halpha] at hm; simp at hm
    · rcases hq with rfl | rfl <;> simp [commentLen] at hm
  · intro k hk m hm
    rw [hcat] at hm
    simp only [List.mem_cons] at hk
    rcases hk with rfl | rfl | hk
    · rcases hq with rfl | rfl <;> simp [numberLen] at hm <;> omega
    · simp [wordLen, halpha] at hm
    · have := (symbolKinds_cases k hk q _ m hm).2
      omega

theorem lexable_string (q : Char) (hq : q = '"' ∨ q = '\'') (text : List Char) (h : Quotable text) :
    Lexable ⟨"_string", quote q text⟩ :=
  ⟨by simp [quote], ⟨"_string", false, stringLen⟩, rfl, rfl, fun rest => string_best q hq text _ h⟩

theorem lexable_written (t : Parser.Tok) (h : Written t) : Lexable t := by
  cases h with
  | identifier w hw => exact lexable_identifier w hw
  | number v hv => exact lexable_number v hv
  | string q text hq h => exact lexable_string q hq text h
  | symbol c label h => exact lexable_symbol c label h

/-- Written tokens with blanks between them are lexed back. -/
theorem tiles_source : ∀ (ts : List Parser.Tok) (off : Nat), (∀ t ∈ ts, Lexable t) →
    ∃ ps, Tiles kinds off (source ts) ps [] ∧
      ((ps.filter fun p => !p.kind.skip).map fun p => (⟨p.kind.label, p.value⟩ : Parser.Tok)) = ts := by
  intro ts
  induction ts with
  | nil => intro off _; exact ⟨[], .done _ _, rfl⟩
  | cons t ts ih =>
    intro off h
    obtain ⟨hne, k, hl, hs, hb⟩ := h t (by simp)
    obtain ⟨ps, ht, hm⟩ := ih (off + t.value.length + 1) (fun x hx => h x (by simp [hx]))
    refine ⟨⟨k, t.value, off⟩ :: ⟨⟨"_space", true, fixedLen " "⟩, [' '], off + t.value.length⟩ :: ps, ?_, ?_⟩
    · have h1 := Tiles.piece (ks := kinds) (off + t.value.length) ⟨"_space", true, fixedLen " "⟩ [' '] (source ts) [] ps
        (by simp) (space_best _) (by simpa using ht)
      have h2 := Tiles.piece (ks := kinds) off k t.value ([' '] ++ source ts) [] _ hne (hb _) h1
      have hsrc : source (t :: ts) = t.value ++ ([' '] ++ source ts) := by simp [source]
      rw [hsrc]; exact h2
    · simp [hs, hm, hl]

theorem lex_source (ts : List Parser.Tok) (h : ∀ t ∈ ts, Written t) :
    ∃ tokens, lexScript (source ts) = .success tokens ∧
      tokens.map (fun t => (⟨t.label, t.value⟩ : Parser.Tok)) = ts := by
  obtain ⟨ps, ht, hm⟩ := tiles_source ts 0 (fun t ht => lexable_written t (h t ht))
  refine ⟨_, (C42_success _ _).mpr ⟨ps, ht, rfl⟩, ?_⟩
  rw [List.map_map]; exact hm

end Verif.Lexer
