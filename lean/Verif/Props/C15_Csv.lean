import Verif.Model.Csv
import Verif.Lemmas.Lines
import Verif.Props.C08_TextCodec
import Verif.Props.C09_ReplaceAll
import Verif.Props.C16_LineReader

/-!
C15: records written to a delimited text file and read back.

For every delimiter other than the double quote and the newline, every non-empty record of safe fields is read back unchanged from its line (`C15_record_partial`), and so is
a whole file of records (`C15_file_partial`). A field is safe if it has no whitespace at its ends and is empty, or is not numeric, is not enclosed in quotes and
contains no two quotes in a row, or is numeric and free of delimiters, quotes, `<` and newlines. The excluded fields are really lost:
`C15_double_quote_violated`, `C15_enclosed_violated`, `C15_whitespace_violated`, `C15_numeric_prefix_violated`, `C15_empty_record_violated`.
-/
namespace Verif.Csv
open Verif.TextCodec Verif.ReplaceAll

/-- Fields that survive. `num` is the library's test whether a text starts like a number. -/
def Safe (num : Str → Bool) (d : UInt8) (f : Str) : Prop :=
  strip f = f ∧ (f = [] ∨ (quoted f = false ∧ num f = false ∧ ¬ [Q, Q] <:+: f) ∨
    (quoted f = false ∧ num f = true ∧ ∀ c ∈ f, c ≠ d ∧ c ≠ Q ∧ c ≠ TextCodec.LT ∧ c ≠ NL))

/-- Doubling quotes and escaping, character by character. -/
def esc (d : UInt8) (f : Str) : Str := f.flatMap (fun c => if c = Q then [Q, Q] else encodeChar d c)

theorem encode_append (d : UInt8) (s t : Str) : encode d (s ++ t) = encode d s ++ encode d t := by
  induction s with
  | nil => rfl
  | cons c s ih => simp [encode, ih]

theorem encodeChar_Q (d : UInt8) (h : d ≠ Q) : encodeChar d Q = [Q] := by
  unfold encodeChar
  rw [if_neg (by decide), if_neg (Ne.symm h), if_neg (by decide)]

theorem replace_quotes (f : Str) : replaceAll f [Q] [Q, Q] = f.flatMap (fun c => if c = Q then [Q, Q] else [c]) := by
  apply C09_unique _ _ _ _ (by simp)
  induction f with
  | nil => exact .done
  | cons c f ih =>
    rw [List.flatMap_cons]
    by_cases h : c = Q
    · subst h
      rw [if_pos rfl]
      exact .hit f _ ih
    · rw [if_neg h]
      exact .copy c f _ (by simpa using Ne.symm h) ih

theorem encode_replace (d : UInt8) (hd : d ≠ Q) (f : Str) : encode d (replaceAll f [Q] [Q, Q]) = esc d f := by
  rw [replace_quotes]
  induction f with
  | nil => rfl
  | cons c f ih =>
    rw [List.flatMap_cons, encode_append, ih]
    simp only [esc, List.flatMap_cons]
    congr 1
    by_cases h : c = Q
    · subst h; simp [encode, encodeChar_Q d hd]
    · simp [h, encode]

theorem Q_not_mem_encodeChar (d c : UInt8) (h : c ≠ Q) : Q ∉ encodeChar d c := by
  unfold encodeChar
  split
  · decide
  · split
    · decide
    · split
      · decide
      · simpa using Ne.symm h

theorem scanLine_nil (d : UInt8) (st : Scan) : scanLine d [] st = st := by rw [scanLine]

theorem scanLine_delim (d : UInt8) (cs : Str) (res : List Str) (w : Str) :
    scanLine d (d :: cs) ⟨res, w, false⟩ = scanLine d cs ⟨res ++ [decodeField d w], [], false⟩ := by
  conv_lhs => unfold scanLine
  simp

theorem scanLine_open (d : UInt8) (hd : d ≠ Q) (cs : Str) (res : List Str) (w : Str) :
    scanLine d (Q :: cs) ⟨res, w, false⟩ = scanLine d cs ⟨res, w, true⟩ := by
  conv_lhs => unfold scanLine
  simp [Ne.symm hd]

theorem scanLine_other (d c : UInt8) (hc : c ≠ Q) (cs : Str) (res : List Str) (w : Str) (b : Bool) (hb : b = true ∨ c ≠ d) :
    scanLine d (c :: cs) ⟨res, w, b⟩ = scanLine d cs ⟨res, w ++ [c], b⟩ := by
  conv_lhs => unfold scanLine
  rcases hb with rfl | hb
  · simp [hc]
  · simp [hc, hb]

theorem scan_inside (d : UInt8) (w : Str) (h : Q ∉ w) (rest : Str) (res : List Str) (acc : Str) :
    scanLine d (w ++ rest) ⟨res, acc, true⟩ = scanLine d rest ⟨res, acc ++ w, true⟩ := by
  induction w generalizing acc with
  | nil => simp
  | cons c w ih =>
    simp only [List.mem_cons, not_or] at h
    rw [List.cons_append, scanLine_other d c (Ne.symm h.1) _ _ _ _ (Or.inl rfl)]
    rw [ih h.2]
    simp

theorem scan_double (d : UInt8) (rest : Str) (res : List Str) (acc : Str) :
    scanLine d (Q :: Q :: rest) ⟨res, acc, true⟩ = scanLine d rest ⟨res, acc ++ [Q], true⟩ := by
  rw [scanLine]; simp

theorem scan_esc (d : UInt8) (hd : d ≠ Q) (f rest : Str) (res : List Str) (acc : Str) :
    scanLine d (esc d f ++ rest) ⟨res, acc, true⟩ = scanLine d rest ⟨res, acc ++ encode d f, true⟩ := by
  induction f generalizing acc with
  | nil => simp [esc, encode]
  | cons c f ih =>
    rw [esc, List.flatMap_cons, ← esc, List.append_assoc, encode]
    by_cases h : c = Q
    · subst h
      rw [if_pos rfl, encodeChar_Q d hd]
      simp only [List.cons_append, List.nil_append]
      rw [scan_double, ih]; simp
    · rw [if_neg h, scan_inside d _ (Q_not_mem_encodeChar d c h), ih]; simp

/-- What may follow a field on its line. -/
def Follows (d : UInt8) (rest : Str) : Prop := rest = [] ∨ ∃ t, rest = d :: t

theorem scan_wrap (d : UInt8) (hd : d ≠ Q) (f rest : Str) (hr : Follows d rest) (res : List Str) :
    scanLine d (wrap d f ++ rest) ⟨res, [], false⟩ = scanLine d rest ⟨res, encode d f, false⟩ := by
  rw [wrap, encode_replace d hd, List.cons_append, List.cons_append, scanLine_open d hd, List.append_assoc]
  rw [scan_esc d hd, List.nil_append, List.singleton_append]
  rcases hr with rfl | ⟨t, rfl⟩
  · conv_lhs => unfold scanLine
    simp
  · conv_lhs => unfold scanLine
    simp [hd]

theorem scan_plain (d : UInt8) (w : Str) (h : ∀ c ∈ w, c ≠ d ∧ c ≠ Q) (rest : Str) (res : List Str) (acc : Str) :
    scanLine d (w ++ rest) ⟨res, acc, false⟩ = scanLine d rest ⟨res, acc ++ w, false⟩ := by
  induction w generalizing acc with
  | nil => simp
  | cons c w ih =>
    obtain ⟨h1, h2⟩ := h c List.mem_cons_self
    rw [List.cons_append, scanLine_other d c h2 _ _ _ _ (Or.inr h1)]
    rw [ih (fun c hc => h c (List.mem_cons_of_mem _ hc))]
    simp

/-! decoding a field -/

theorem strip_ends {f : Str} (h : strip f = f) : (∀ c, f.head? = some c → isSpace c = false) ∧ (∀ c, f.getLast? = some c → isSpace c = false) := by
  have hl : f.dropWhile isSpace = f := by
    have h1 : (strip f).length ≤ (f.dropWhile isSpace).length := by
      unfold strip
      rw [List.length_reverse]
      have h := (List.dropWhile_sublist isSpace (l := (f.dropWhile isSpace).reverse)).length_le
      simpa using h
    rw [h] at h1
    exact (List.dropWhile_sublist isSpace).eq_of_length_le h1
  have hr : f.reverse.dropWhile isSpace = f.reverse := by
    have : strip f = f := h
    unfold strip at this
    rw [hl] at this
    have := congrArg List.reverse this
    simpa using this
  have key : ∀ g : Str, g.dropWhile isSpace = g → ∀ c, g.head? = some c → isSpace c = false := by
    intro g hg c hc
    cases g with
    | nil => simp at hc
    | cons x g =>
      simp only [List.head?_cons, Option.some.injEq] at hc
      subst hc
      by_contra hs
      rw [List.dropWhile_cons_of_pos (by simpa using hs)] at hg
      have := congrArg List.length hg
      have h2 := (List.dropWhile_sublist isSpace (l := g)).length_le
      simp at this; omega
  refine ⟨key f hl, ?_⟩
  intro c hc
  exact key f.reverse hr c (by simpa using hc)

theorem strip_of_ends {f : Str} (h1 : ∀ c, f.head? = some c → isSpace c = false) (h2 : ∀ c, f.getLast? = some c → isSpace c = false) : strip f = f := by
  have key : ∀ g : Str, (∀ c, g.head? = some c → isSpace c = false) → g.dropWhile isSpace = g := by
    intro g hg
    cases g with
    | nil => rfl
    | cons x g => rw [List.dropWhile_cons_of_neg (by simp [hg x rfl])]
  unfold strip
  rw [key f h1, key f.reverse (by simpa using h2), List.reverse_reverse]

theorem encodeChar_ne_nil (d c : UInt8) : encodeChar d c ≠ [] := by
  unfold encodeChar; split
  · simp
  · split
    · simp
    · split <;> simp

theorem encodeChar_head (d c x : UInt8) (h : (encodeChar d c).head? = some x) : x = TextCodec.LT ∨ x = c := by
  unfold encodeChar at h
  split at h
  · simp at h; exact Or.inl h.symm
  · split at h
    · simp at h; exact Or.inl h.symm
    · split at h
      · simp at h; exact Or.inl h.symm
      · simp at h; exact Or.inr h.symm

theorem encodeChar_last (d c x : UInt8) (h : (encodeChar d c).getLast? = some x) : x = TextCodec.LT ∨ x = GT ∨ x = c := by
  unfold encodeChar at h
  split at h
  · simp at h; exact Or.inl h.symm
  · split at h
    · simp at h; exact Or.inr (Or.inl h.symm)
    · split at h
      · simp at h; exact Or.inr (Or.inl h.symm)
      · simp at h; exact Or.inr (Or.inr h.symm)

theorem encode_head (d : UInt8) (f : Str) (x : UInt8) (h : (encode d f).head? = some x) : x = TextCodec.LT ∨ f.head? = some x := by
  cases f with
  | nil => simp [encode] at h
  | cons c f =>
    rw [encode, List.head?_append] at h
    obtain ⟨y, ys, he⟩ := List.exists_cons_of_ne_nil (encodeChar_ne_nil d c)
    rw [he] at h
    simp only [List.head?_cons, Option.or_some, Option.some.injEq] at h
    have := encodeChar_head d c y (by rw [he]; rfl)
    simp at h
    subst h
    rcases this with h | h
    · exact Or.inl h
    · exact Or.inr (by rw [h]; rfl)

theorem encode_last (d : UInt8) (f : Str) (x : UInt8) (h : (encode d f).getLast? = some x) : x = TextCodec.LT ∨ x = GT ∨ f.getLast? = some x := by
  rcases List.eq_nil_or_concat f with rfl | ⟨g, c, rfl⟩
  · simp [encode] at h
  · rw [List.concat_eq_append, encode_append, List.getLast?_append, encode, encode, List.append_nil] at h
    cases hl : (encodeChar d c).getLast? with
    | none => rw [List.getLast?_eq_none_iff] at hl; exact absurd hl (encodeChar_ne_nil d c)
    | some y =>
      rw [hl] at h
      simp only [Option.some_or, Option.some.injEq] at h
      subst h
      rcases encodeChar_last d c y hl with h | h | h
      · exact Or.inl h
      · exact Or.inr (Or.inl h)
      · exact Or.inr (Or.inr (by simp [h]))

theorem strip_encode (d : UInt8) (f : Str) (h : strip f = f) : strip (encode d f) = encode d f := by
  obtain ⟨h1, h2⟩ := strip_ends h
  apply strip_of_ends
  · intro c hc
    rcases encode_head d f c hc with rfl | h
    · decide
    · exact h1 c h
  · intro c hc
    rcases encode_last d f c hc with rfl | rfl | h
    · decide
    · decide
    · exact h2 c h

theorem quoted_encode (d : UInt8) (f : Str) (h : quoted f = false) : quoted (encode d f) = false := by
  rw [Bool.eq_false_iff] at h ⊢
  intro hq
  apply h
  simp only [quoted, Bool.and_eq_true, decide_eq_true_eq] at hq ⊢
  refine ⟨?_, ?_⟩
  · rcases encode_head d f Q hq.1 with h | h
    · exact absurd h (by decide)
    · exact h
  · rcases encode_last d f Q hq.2 with h | h | h
    · exact absurd h (by decide)
    · exact absurd h (by decide)
    · exact h

theorem replaced_same (d : UInt8) (hd : d ≠ Q) (f : Str) (h : ¬ [Q, Q] <:+: f) : Replaced [Q, Q] [Q] (encode d f) (encode d f) := by
  induction f with
  | nil => exact .done
  | cons c f ih =>
    have ih' := ih (fun hi => h (hi.trans (List.suffix_cons c f).isInfix))
    rw [encode]
    by_cases hc : c = Q
    · subst hc
      rw [encodeChar_Q d hd]
      refine .copy Q _ _ ?_ ih'
      intro hp
      rw [List.cons_prefix_cons] at hp
      obtain ⟨t, ht⟩ := hp.2
      have hh : (encode d f).head? = some Q := by
        change [Q] ++ t = encode d f at ht
        rw [← ht]; rfl
      rcases encode_head d f Q hh with h' | h'
      · exact absurd h' (by decide)
      · cases f with
        | nil => simp at h'
        | cons x f =>
          simp only [List.head?_cons, Option.some.injEq] at h'
          subst h'
          exact h ⟨[], f, rfl⟩
    · have hn := Q_not_mem_encodeChar d c hc
      generalize encodeChar d c = w at hn
      induction w with
      | nil => exact ih'
      | cons x w ihw =>
        simp only [List.mem_cons, not_or] at hn
        refine .copy x _ _ ?_ (ihw hn.2)
        intro hp
        rw [List.cons_prefix_cons] at hp
        exact hn.1 hp.1

theorem decodeField_encode (d : UInt8) (hd : d ≠ Q) (f : Str) (h1 : strip f = f) (h2 : quoted f = false) (h3 : ¬ [Q, Q] <:+: f) :
    decodeField d (encode d f) = f := by
  unfold decodeField
  simp only [strip_encode d f h1, quoted_encode d f h2, Bool.false_eq_true, if_false]
  rw [C09_unique _ _ _ _ (by simp) (replaced_same d hd f h3), C08_round_trip]

theorem decode_plain (d : UInt8) (f : Str) (h : ∀ c ∈ f, c ≠ TextCodec.LT) : TextCodec.decode d f = f := by
  induction f with
  | nil => rw [TextCodec.decode]
  | cons c f ih =>
    rw [decode_cons_ne d c f (h c List.mem_cons_self), ih (fun c hc => h c (List.mem_cons_of_mem _ hc))]

theorem decodeField_plain (d : UInt8) (f : Str) (h1 : strip f = f) (h3 : ∀ c ∈ f, c ≠ Q ∧ c ≠ TextCodec.LT) :
    decodeField d f = f := by
  have hq : quoted f = false := by
    rw [Bool.eq_false_iff]
    intro hq
    simp only [quoted, Bool.and_eq_true, decide_eq_true_eq] at hq
    exact (h3 Q (List.mem_of_mem_head? hq.1)).1 rfl
  unfold decodeField
  simp only [h1, hq, Bool.false_eq_true, if_false]
  rw [C09_absent _ _ _ (by simp), decode_plain d f (fun c hc => (h3 c hc).2)]
  intro hi
  exact (h3 Q (hi.subset (by simp))).1 rfl

/-- A safe field on a line reads back as itself. -/
theorem scan_field (num : Str → Bool) (d : UInt8) (hd : d ≠ Q) (f rest : Str) (hs : Safe num d f) (hr : Follows d rest) (res : List Str) :
    ∃ w, scanLine d (writeField num d f ++ rest) ⟨res, [], false⟩ = scanLine d rest ⟨res, w, false⟩ ∧ decodeField d w = f := by
  obtain ⟨h1, h2⟩ := hs
  unfold writeField
  simp only [h1]
  by_cases h0 : f = []
  · subst h0
    exact ⟨[], by simp, decodeField_plain d [] h1 (by simp)⟩
  · rw [if_neg h0]
    rcases h2 with h | ⟨hq, hn, hi⟩ | ⟨hq, hn, hp⟩
    · exact absurd h h0
    · simp only [hq, hn, Bool.false_eq_true, if_false]
      exact ⟨encode d f, scan_wrap d hd f rest hr res, decodeField_encode d hd f h1 hq hi⟩
    · simp only [hq, hn, Bool.false_eq_true, if_false, if_true]
      refine ⟨f, ?_, decodeField_plain d f h1 (fun c hc => ⟨(hp c hc).2.1, (hp c hc).2.2.1⟩)⟩
      rw [scan_plain d f (fun c hc => ⟨(hp c hc).1, (hp c hc).2.1⟩)]
      simp

theorem scan_record (num : Str → Bool) (d : UInt8) (hd : d ≠ Q) (r : List Str) (hne : r ≠ []) (hs : ∀ f ∈ r, Safe num d f) (res : List Str) :
    ∃ res' w, scanLine d (writeRecord num d r) ⟨res, [], false⟩ = ⟨res', w, false⟩ ∧ res' ++ [decodeField d w] = res ++ r := by
  induction r generalizing res with
  | nil => exact absurd rfl hne
  | cons f fs ih =>
    cases fs with
    | nil =>
      obtain ⟨w, h1, h2⟩ := scan_field num d hd f [] (hs f List.mem_cons_self) (Or.inl rfl) res
      rw [List.append_nil] at h1
      refine ⟨res, w, ?_, by rw [h2]⟩
      rw [writeRecord, h1, scanLine]
    | cons g gs =>
      obtain ⟨w, h1, h2⟩ := scan_field num d hd f (d :: writeRecord num d (g :: gs)) (hs f List.mem_cons_self) (Or.inr ⟨_, rfl⟩) res
      obtain ⟨res', w', h3, h4⟩ := ih (by simp) (fun f hf => hs f (List.mem_cons_of_mem _ hf)) (res ++ [f])
      refine ⟨res', w', ?_, by rw [h4]; simp⟩
      rw [writeRecord, h1, scanLine_delim, h2, h3]
      simp

/-- A record of safe fields, written as a line and followed by anything, is read back unchanged, and exactly its line is consumed. -/
theorem C15_record_partial (num : Str → Bool) (d : UInt8) (hd : d ≠ Q) (r : List Str) (hne : r ≠ []) (hs : ∀ f ∈ r, Safe num d f) (later : List Str) :
    nextRecord d (writeRecord num d r :: later) = some (r, later) := by
  obtain ⟨res', w, h1, h2⟩ := scan_record num d hd r hne hs []
  unfold nextRecord
  simp only [scanLines, h1, if_true, Bool.false_eq_true, if_false, h2, List.nil_append]

theorem NL_not_mem_writeField (num : Str → Bool) (d : UInt8) (f : Str) (hs : Safe num d f) : NL ∉ writeField num d f := by
  obtain ⟨h1, h2⟩ := hs
  unfold writeField
  simp only [h1]
  split
  · rename_i h; rw [h]; simp
  · rename_i h0
    rcases h2 with h | ⟨hq, hn, hi⟩ | ⟨hq, hn, hp⟩
    · exact absurd h h0
    · simp only [hq, hn, Bool.false_eq_true, if_false, wrap]
      simp only [List.cons_append, List.mem_cons, List.mem_append, List.not_mem_nil, or_false, not_or]
      exact ⟨by decide, C08_no_newline d _, by decide⟩
    · simp only [hq, hn, Bool.false_eq_true, if_false, if_true]
      exact fun h => (hp NL h).2.2.2 rfl

theorem NL_not_mem_writeRecord (num : Str → Bool) (d : UInt8) (hd : d ≠ NL) (r : List Str) (hs : ∀ f ∈ r, Safe num d f) :
    NL ∉ writeRecord num d r := by
  induction r with
  | nil => simp [writeRecord]
  | cons f fs ih =>
    have h1 := NL_not_mem_writeField num d f (hs f List.mem_cons_self)
    have h2 := ih (fun f hf => hs f (List.mem_cons_of_mem _ hf))
    cases fs with
    | nil => rw [writeRecord]; exact h1
    | cons g gs =>
      rw [writeRecord]
      · simp only [List.mem_append, List.mem_cons, not_or]
        exact ⟨h1, Ne.symm hd, h2⟩
      · simp

theorem readAll_map (num : Str → Bool) (d : UInt8) (hd : d ≠ Q) (rs : List (List Str)) (hne : ∀ r ∈ rs, r ≠ [])
    (hs : ∀ r ∈ rs, ∀ f ∈ r, Safe num d f) (fuel : Nat) (hf : rs.length ≤ fuel) : readAll d fuel (rs.map (writeRecord num d)) = some rs := by
  induction rs generalizing fuel with
  | nil => cases fuel <;> rfl
  | cons r rs ih =>
    cases fuel with
    | zero => simp at hf
    | succ n =>
      rw [List.map_cons, readAll, C15_record_partial num d hd r (hne r List.mem_cons_self) (hs r List.mem_cons_self), Option.bind_some]
      simp only [ih (fun r hr => hne r (List.mem_cons_of_mem _ hr)) (fun r hr => hs r (List.mem_cons_of_mem _ hr)) n (by simpa using hf), Option.map_some]

/-- A whole file: writing records of safe fields one per line and reading the file back (lines through the line reader, records until the end) gives the same
records. -/
theorem C15_file_partial (num : Str → Bool) (d : UInt8) (hq : d ≠ Q) (hn : d ≠ NL) (rs : List (List Str)) (hne : ∀ r ∈ rs, r ≠ [])
    (hs : ∀ r ∈ rs, ∀ f ∈ r, Safe num d f) (hrs : rs ≠ []) (fuel : Nat) (hf : rs.length ≤ fuel) :
    readAll d fuel (LineReader.drain [] fuel (LineReader.openReader [] false
      [some (Lines.getLines NL (Lines.putLines NL (rs.map (writeRecord num d))))])) = some rs := by
  have hl := Lines.getLines_putLines NL (rs.map (writeRecord num d)) (by
    intro l hl
    obtain ⟨r, hr, rfl⟩ := List.mem_map.mp hl
    exact NL_not_mem_writeRecord num d hn r (hs r hr))
  have ha : LineReader.allLines false [some (Lines.getLines NL (Lines.putLines NL (rs.map (writeRecord num d))))] = rs.map (writeRecord num d) := by
    simp [LineReader.allLines, LineReader.body, hl]
  rw [LineReader.C16_all_partial [] false _ ?_ fuel (by rw [ha]; simpa using hf), ha]
  · exact readAll_map num d hq rs hne hs fuel hf
  · intro f hf
    simp only [List.mem_singleton] at hf
    subst hf
    simp only [LineReader.Useful, LineReader.body, hl]
    simpa using hrs

/-! ### Line breaks within quotes -/

/-- The lines of a text: it is cut at every line break. -/
def cut : Str → List Str
  | [] => [[]]
  | c :: cs => if c = NL then [] :: cut cs else
    match cut cs with
    | [] => [[c]]
    | l :: ls => (c :: l) :: ls

/-- A field as other programs write it: in quotes, quotes doubled, everything else (line breaks too) as it is. -/
def enclosed (f : Str) : Str := Q :: f.flatMap (fun c => if c = Q then [Q, Q] else [c]) ++ [Q]

/-- A record of such fields. -/
def enclosedRecord (d : UInt8) : List Str → Str
  | [] => []
  | [f] => enclosed f
  | f :: fs => enclosed f ++ d :: enclosedRecord d fs

theorem cut_cons (cs : Str) : ∃ l ls, cut cs = l :: ls := by
  cases cs with
  | nil => exact ⟨_, _, rfl⟩
  | cons c cs =>
    rw [cut]
    split
    · exact ⟨_, _, rfl⟩
    · split <;> exact ⟨_, _, rfl⟩

theorem cut_char (c : UInt8) (h : c ≠ NL) (cs : Str) (l : Str) (ls : List Str) (hc : cut cs = l :: ls) : cut (c :: cs) = (c :: l) :: ls := by
  rw [cut, if_neg h, hc]

theorem lines_congr (d : UInt8) (l l' : Str) (ls : List Str) (st st' : Scan) (h : scanLine d l st = scanLine d l' st') :
    scanLines d (l :: ls) st = scanLines d (l' :: ls) st' := by
  simp only [scanLines, h]

theorem lines_enclosed (d : UInt8) (hd : d ≠ Q) (hn : d ≠ NL) (f rest : Str) (hr : Follows d rest) (later : List Str) (res : List Str) (acc : Str) :
    scanLines d (cut (f.flatMap (fun c => if c = Q then [Q, Q] else [c]) ++ Q :: rest) ++ later) ⟨res, acc, true⟩ =
      scanLines d (cut rest ++ later) ⟨res, acc ++ f, false⟩ := by
  induction f generalizing acc with
  | nil =>
    obtain ⟨l, ls, hl⟩ := cut_cons rest
    rw [List.flatMap_nil, List.nil_append, cut_char Q (by decide) rest l ls hl, hl, List.append_nil]
    apply lines_congr
    have hnq : l.head? ≠ some Q := by
      rcases hr with rfl | ⟨t, rfl⟩
      · simp only [cut, List.cons.injEq] at hl; rw [← hl.1]; simp
      · obtain ⟨l2, ls2, h2⟩ := cut_cons t
        rw [cut_char d hn t l2 ls2 h2, List.cons.injEq] at hl
        rw [← hl.1]; simpa using hd
    conv_lhs => unfold scanLine
    cases l with
    | nil => simp
    | cons x l => simp only [List.head?_cons, ne_eq, Option.some.injEq] at hnq; simp [hnq]
  | cons c f ih =>
    rw [List.flatMap_cons, List.append_assoc]
    by_cases hq : c = Q
    · subst hq
      rw [if_pos rfl]
      obtain ⟨l, ls, hl⟩ := cut_cons (f.flatMap (fun c => if c = Q then [Q, Q] else [c]) ++ Q :: rest)
      have e := ih (acc ++ [Q])
      rw [hl] at e
      rw [List.cons_append, List.cons_append, List.nil_append, cut_char Q (by decide) _ (Q :: l) ls (cut_char Q (by decide) _ l ls hl)]
      rw [List.cons_append, lines_congr d (Q :: Q :: l) l _ _ ⟨res, acc ++ [Q], true⟩ (scan_double d l res acc)]
      rw [← List.cons_append, e]
      simp
    · rw [if_neg hq, List.singleton_append]
      by_cases hnl : c = NL
      · subst hnl
        rw [cut, if_pos rfl, List.cons_append, scanLines, scanLine_nil]
        simp only [Bool.true_eq_false, if_false]
        rw [ih]; simp
      · obtain ⟨l, ls, hl⟩ := cut_cons (f.flatMap (fun c => if c = Q then [Q, Q] else [c]) ++ Q :: rest)
        have e := ih (acc ++ [c])
        rw [hl] at e
        rw [cut_char c hnl _ l ls hl, List.cons_append, lines_congr d (c :: l) l _ _ ⟨res, acc ++ [c], true⟩ (scanLine_other d c hq l res acc true (Or.inl rfl))]
        rw [← List.cons_append, e]
        simp

/-- Fields that can be read from quotes: no whitespace at the ends, not enclosed in further quotes, no two quotes in a row, no `<` (an escape). -/
def Readable (f : Str) : Prop := strip f = f ∧ quoted f = false ∧ ¬ [Q, Q] <:+: f ∧ TextCodec.LT ∉ f

theorem decodeField_readable (d : UInt8) (f : Str) (h : Readable f) : decodeField d f = f := by
  obtain ⟨h1, h2, h3, h4⟩ := h
  unfold decodeField
  simp only [h1, h2, Bool.false_eq_true, if_false]
  rw [C09_absent _ _ _ (by simp) h3, decode_plain d f (fun c hc h => h4 (h ▸ hc))]

theorem lines_record (d : UInt8) (hd : d ≠ Q) (hn : d ≠ NL) (r : List Str) (hne : r ≠ []) (hs : ∀ f ∈ r, Readable f) (later : List Str)
    (res : List Str) :
    ∃ res' w, scanLines d (cut (enclosedRecord d r) ++ later) ⟨res, [], false⟩ = (⟨res', w, false⟩, later) ∧ res' ++ [decodeField d w] = res ++ r := by
  have hopen : ∀ (f rest : Str) (res : List Str), Follows d rest →
      scanLines d (cut (enclosed f ++ rest) ++ later) ⟨res, [], false⟩ = scanLines d (cut rest ++ later) ⟨res, f, false⟩ := by
    intro f rest res hr
    obtain ⟨l, ls, hl⟩ := cut_cons (f.flatMap (fun c => if c = Q then [Q, Q] else [c]) ++ Q :: rest)
    have e := lines_enclosed d hd hn f rest hr later res []
    rw [hl] at e
    have e2 : enclosed f ++ rest = Q :: (f.flatMap (fun c => if c = Q then [Q, Q] else [c]) ++ Q :: rest) := by simp [enclosed]
    rw [e2, cut_char Q (by decide) _ l ls hl, List.cons_append, lines_congr d (Q :: l) l _ _ ⟨res, [], true⟩ (scanLine_open d hd l res [])]
    rw [← List.cons_append, e, List.nil_append]
  induction r generalizing res with
  | nil => exact absurd rfl hne
  | cons f fs ih =>
    have hf := decodeField_readable d f (hs f List.mem_cons_self)
    cases fs with
    | nil =>
      refine ⟨res, f, ?_, by rw [hf]⟩
      have e := hopen f [] res (Or.inl rfl)
      rw [List.append_nil] at e
      rw [enclosedRecord, e, cut, List.singleton_append, scanLines, scanLine_nil]
      simp
    | cons g gs =>
      obtain ⟨res', w', h3, h4⟩ := ih (by simp) (fun f hf => hs f (List.mem_cons_of_mem _ hf)) (res ++ [f])
      refine ⟨res', w', ?_, by rw [h4]; simp⟩
      rw [enclosedRecord, hopen f _ res (Or.inr ⟨_, rfl⟩)]
      · obtain ⟨l, ls, hl⟩ := cut_cons (enclosedRecord d (g :: gs))
        rw [hl] at h3
        rw [cut_char d hn _ l ls hl, List.cons_append, lines_congr d (d :: l) l _ _ ⟨res ++ [decodeField d f], [], false⟩ (scanLine_delim d l res f), hf]
        exact h3
      · simp

/-- C15. Fields enclosed in quotes may contain line breaks: the record is read from as many lines as it takes, and the fields come back with their line
breaks (and quotes, and delimiters) in place. -/
theorem C15_line_breaks_partial (d : UInt8) (hd : d ≠ Q) (hn : d ≠ NL) (r : List Str) (hne : r ≠ []) (hs : ∀ f ∈ r, Readable f) (later : List Str) :
    nextRecord d (cut (enclosedRecord d r) ++ later) = some (r, later) := by
  obtain ⟨res', w, h1, h2⟩ := lines_record d hd hn r hne hs later []
  unfold nextRecord
  simp only [h1, Bool.false_eq_true, if_false, h2, List.nil_append]

-- `a⏎b"c,d` and `e`: readable, three lines
example : ∀ f ∈ [[97, 10, 98, 34, 99, 44, 100], [101, 10, 102]], Readable f := by unfold Readable; decide +kernel
example : cut (enclosedRecord 44 [[97, 10, 98, 34, 99, 44, 100], [101, 10, 102]]) =
    [[34, 97], [98, 34, 34, 99, 44, 100, 34, 44, 34, 101], [102, 34]] := by decide +kernel

/-- Two quotes in a row become one: `a""b` is read back as `a"b`. -/
theorem C15_double_quote_violated : nextRecord 44 [writeRecord isFloat 44 [[97, 34, 34, 98]]] = some ([[97, 34, 98]], []) := by decide +kernel

/-- Enclosing quotes are lost: `"a"` is read back as `a`. -/
theorem C15_enclosed_violated : nextRecord 44 [writeRecord isFloat 44 [[34, 97, 34]]] = some ([[97]], []) := by decide +kernel

/-- Whitespace at the ends is lost. -/
theorem C15_whitespace_violated : nextRecord 44 [writeRecord isFloat 44 [[32, 97]]] = some ([[97]], []) := by decide +kernel

/-- A text that starts with a number is not quoted: `1,5` is read back as two fields. -/
theorem C15_numeric_prefix_violated : nextRecord 44 [writeRecord isFloat 44 [[49, 44, 53]]] = some ([[49], [53]], []) := by decide +kernel

/-- ... and with a quote inside it the file cannot be read at all: `1"` raises the "unclosed quote" error. -/
theorem C15_numeric_quote_violated : nextRecord 44 [writeRecord isFloat 44 [[49, 34]]] = none := by decide +kernel

/-- A record without fields is read back as one empty field. -/
theorem C15_empty_record_violated : nextRecord 44 [writeRecord isFloat 44 []] = some ([[]], []) := by decide +kernel

-- `he said "hi", <b>`, `-1.5`, empty: all safe
example : ∀ f ∈ [[104, 101, 32, 34, 104, 105, 34, 44, 10, 60, 98, 62], [45, 49, 46, 53], ([] : Str)], Safe isFloat 44 f := by
  unfold Safe; decide +kernel
example : writeRecord isFloat 44 [[97, 34, 44, 10, 60], [45, 49]] =
    [34, 97, 34, 34, 60, 126, 68, 62, 60, 126, 78, 62, 60, 95, 60, 34, 44, 45, 49] := by decide +kernel

end Verif.Csv
