import Verif.Model.Tokenizer
import Verif.Lemmas.Lines

/-!
C13, C14: tokenizing text into words, from a string and from a file.

* C13 — the tokens concatenate to the text with carriage returns removed, runs of one whitespace character collapsed to one, and unprintable characters shown as byte
  254 (`C13_content`); every token is a single punctuation character or an optional whitespace character followed by word characters, and is not empty
  (`C13_shape`); tokenizing the concatenation again gives the same tokens (`C13_idempotent`).
* C14 — the tokens of a file are the tokens of its content, for every buffer size (`C14_file`) and every way of cutting the content into reads
  (`C14_chunks`). Lines of a file: `C14_lines`, `C14_lines_shape`.
-/
namespace Verif.Tokenizer
open Verif.Lines

/-- What one character becomes: unprintable characters become byte 254. -/
def shown (c : Byte) : Byte := if isSpace c || isPrint c then c else 254

/-- Specification of the characters that are kept, given the previous character: a whitespace character that repeats the previous character is dropped. -/
def kept (prev : Byte) : List Byte → List Byte
  | [] => []
  | c :: cs => if isSpace c ∧ c = prev then kept c cs else shown c :: kept c cs

/-- Specification of the content that survives tokenizing. -/
def content (text : List Byte) : List Byte := kept 0 (text.filter (· ≠ 13))

/-- Punctuation: printable and not a letter, digit or space. -/
def IsPunct (c : Byte) : Prop := isPrint c ∧ ¬ isAlnum c ∧ ¬ isSpace c
/-- Characters inside a word. -/
def IsWordChar (c : Byte) : Prop := isAlnum c ∨ c = 254 ∨ c = 46

/-- Specification of a well-formed token. -/
def IsToken (t : List Byte) : Prop :=
  (∃ c, t = [c] ∧ IsPunct c) ∨
  (∃ sp w, t = sp ++ w ∧ t ≠ [] ∧ (sp = [] ∨ ∃ c, sp = [c] ∧ isSpace c) ∧ ∀ c ∈ w, IsWordChar c)

theorem flush_flat (s : State) : (flush s).tokens.flatten ++ (flush s).token = s.tokens.flatten ++ s.token := by
  unfold flush; split <;> simp_all

theorem flush_token (s : State) : (flush s).token = [] := by
  unfold flush; split <;> simp_all

theorem shown_print {c : Byte} (h : isPrint c = true) : shown c = c := by simp [shown, h]
theorem shown_space {c : Byte} (h : isSpace c = true) : shown c = c := by simp [shown, h]

theorem append_flat (s : State) (c : Byte) (hc : c ≠ 13) :
    (append s c).tokens.flatten ++ (append s c).token = s.tokens.flatten ++ s.token ++ (if isSpace c ∧ c = s.last then [] else [shown c]) ∧
    (append s c).last = c := by
  have hf := flush_flat s
  rw [flush_token, List.append_nil] at hf
  unfold append
  rw [if_neg hc]
  by_cases hs : isSpace c = true
  · rw [if_pos hs]
    by_cases hl : c = s.last
    · rw [if_neg (by simpa using hl), if_pos ⟨hs, hl⟩]; simp
    · rw [if_pos hl, if_neg (fun h => hl h.2)]
      simp [hf, shown_space hs]
  · rw [if_neg hs]
    have hr : (if isSpace c = true ∧ c = s.last then ([] : List Byte) else [shown c]) = [shown c] := if_neg (fun h => hs h.1)
    rw [hr]
    split
    · rename_i h
      rw [Bool.and_eq_true, Bool.and_eq_true] at h
      simp [hf, shown_print h.1.1]
    · split
      · rename_i h
        have hp : isPrint c = false := by simpa using h
        have : shown c = 254 := by simp [shown, hs, hp]
        simp [this]
      · rename_i h
        have hp : isPrint c = true := by simpa using h
        simp [shown_print hp]

theorem fold_flat (text : List Byte) (s : State) :
    (text.foldl append s).tokens.flatten ++ (text.foldl append s).token =
      s.tokens.flatten ++ s.token ++ kept s.last (text.filter (· ≠ 13)) := by
  induction text generalizing s with
  | nil => simp [kept]
  | cons c cs ih =>
    rw [List.foldl_cons, ih]
    by_cases hc : c = 13
    · subst hc; simp [append]
    · obtain ⟨h1, h2⟩ := append_flat s c hc
      rw [h1, h2, List.filter_cons_of_pos (by simpa using hc), kept]
      split <;> simp

/-- The tokens concatenate to the surviving content of the text. -/
theorem C13_content (text : List Byte) : (tokens text).flatten = content text := by
  have h := flush_flat (text.foldl append init)
  rw [flush_token, List.append_nil, fold_flat] at h
  simpa [tokens, content, init] using h

/-- Partial words under construction. -/
def Partial (t : List Byte) : Prop := ∃ sp w, t = sp ++ w ∧ (sp = [] ∨ ∃ c, sp = [c] ∧ isSpace c) ∧ ∀ c ∈ w, IsWordChar c

theorem partial_snoc {t : List Byte} {c : Byte} (h : Partial t) (hc : IsWordChar c) : Partial (t ++ [c]) := by
  obtain ⟨sp, w, rfl, h1, h2⟩ := h
  refine ⟨sp, w ++ [c], by simp, h1, ?_⟩
  intro d hd
  rw [List.mem_append, List.mem_singleton] at hd
  rcases hd with hd | rfl
  · exact h2 d hd
  · exact hc

theorem flush_inv {s : State} (h1 : ∀ t ∈ s.tokens, IsToken t) (h2 : Partial s.token) : ∀ t ∈ (flush s).tokens, IsToken t := by
  unfold flush
  split
  · exact h1
  · rename_i hne
    intro t ht
    rw [List.mem_append, List.mem_singleton] at ht
    rcases ht with ht | rfl
    · exact h1 t ht
    · obtain ⟨sp, w, he, ha, hb⟩ := h2
      exact Or.inr ⟨sp, w, he, hne, ha, hb⟩

theorem append_inv {s : State} (c : Byte) (h1 : ∀ t ∈ s.tokens, IsToken t) (h2 : Partial s.token) :
    (∀ t ∈ (append s c).tokens, IsToken t) ∧ Partial (append s c).token := by
  have hf := flush_inv h1 h2
  unfold append
  split
  · exact ⟨h1, h2⟩
  · split
    · rename_i hs
      split
      · exact ⟨hf, [c], [], by simp, Or.inr ⟨c, rfl, hs⟩, by simp⟩
      · exact ⟨h1, h2⟩
    · rename_i hs
      split
      · rename_i h
        simp only [Bool.and_eq_true, Bool.not_eq_true'] at h
        refine ⟨?_, [], [], rfl, Or.inl rfl, by simp⟩
        intro t ht
        simp only [List.mem_append, List.mem_singleton] at ht
        rcases ht with ht | rfl
        · exact hf t ht
        · exact Or.inl ⟨c, rfl, h.1.1, by simp [h.1.2], hs⟩
      · rename_i hq
        split
        · exact ⟨h1, partial_snoc h2 (Or.inr (Or.inl rfl))⟩
        · rename_i hp
          refine ⟨h1, partial_snoc h2 ?_⟩
          simp only [Bool.not_eq_true, Bool.not_eq_false'] at hp
          by_cases ha : isAlnum c = true
          · exact Or.inl ha
          · by_cases h46 : c = 46
            · exact Or.inr (Or.inr h46)
            · exfalso; apply hq; rw [hp]; simp only [Bool.not_eq_true] at ha; rw [ha, decide_eq_true (show c ≠ 46 from h46)]; rfl

theorem fold_inv (text : List Byte) (s : State) (h1 : ∀ t ∈ s.tokens, IsToken t) (h2 : Partial s.token) :
    (∀ t ∈ (text.foldl append s).tokens, IsToken t) ∧ Partial (text.foldl append s).token := by
  induction text generalizing s with
  | nil => exact ⟨h1, h2⟩
  | cons c cs ih => have := append_inv c h1 h2; exact ih _ this.1 this.2

/-- Every token is a single punctuation character, or an optional whitespace character followed by word characters; none is empty. -/
theorem C13_shape (text : List Byte) : ∀ t ∈ tokens text, IsToken t ∧ t ≠ [] := by
  intro t ht
  obtain ⟨a, b⟩ := fold_inv text init (by simp [init]) ⟨[], [], rfl, Or.inl rfl, by simp⟩
  have := flush_inv a b t ht
  refine ⟨this, ?_⟩
  rcases this with ⟨c, rfl, _⟩ | ⟨_, _, _, h, _⟩
  · simp
  · exact h

/-- States that differ only in a way the tokenizer cannot see. -/
def Same (s s' : State) : Prop :=
  s.token = s'.token ∧ s.tokens = s'.tokens ∧ shown s'.last = shown s.last

theorem shown_shown (c : Byte) : shown (shown c) = shown c := by revert c; decide +kernel
theorem shown_digit (c : Byte) : isDigit (shown c) = isDigit c := by revert c; decide +kernel
theorem shown_isSpace (c : Byte) : isSpace (shown c) = isSpace c := by revert c; decide +kernel
theorem shown_eq (c d : Byte) (h : isSpace c = true) : c = shown d ↔ c = d := by
  constructor
  · intro e
    have := shown_isSpace d
    rw [← e, h] at this
    rw [shown, ← this] at e
    simpa using e
  · rintro rfl; exact (shown_space h).symm
theorem shown_ne13 (c : Byte) (h : c ≠ 13) : shown c ≠ 13 := by revert c; decide +kernel

theorem same_flush {s s' : State} (h : Same s s') : (flush s).tokens = (flush s').tokens := by
  obtain ⟨a, b, _⟩ := h
  unfold flush
  rw [a, b]
  split <;> simp_all

theorem same_append {s s' : State} (h : Same s s') (c : Byte) (hc : c ≠ 13) : Same (append s c) (append s' (shown c)) := by
  have hf := same_flush h
  obtain ⟨a, b, e⟩ := h
  unfold append
  rw [if_neg hc, if_neg (shown_ne13 c hc), shown_isSpace]
  by_cases hs : isSpace c = true
  · rw [if_pos hs, if_pos hs, shown_space hs]
    by_cases hl : c = s.last
    · rw [if_neg (by simpa using hl), if_neg (by simpa using (shown_eq c s'.last hs).mp (e ▸ (shown_eq c s.last hs).mpr hl))]
      exact ⟨a, b, rfl⟩
    · rw [if_pos hl, if_pos (fun h => hl ((shown_eq c s.last hs).mp (e ▸ (shown_eq c s'.last hs).mpr h)))]
      exact ⟨rfl, hf, rfl⟩
  · have hd : isDigit s'.last = isDigit s.last := by rw [← shown_digit, e, shown_digit]
    rw [if_neg hs, if_neg hs, hd]
    by_cases hp : isPrint c = true
    · rw [shown_print hp]
      split
      · exact ⟨rfl, by simp [hf], rfl⟩
      · rw [if_neg (by simp [hp]), if_neg (by simp [hp])]
        exact ⟨by simp [a], b, rfl⟩
    · have h254 : shown c = 254 := by simp [shown, hs, hp]
      rw [h254]
      have h1 : isPrint (254 : Byte) = false := by decide
      have hp' : isPrint c = false := by simpa using hp
      simp only [hp', h1, Bool.false_and, Bool.false_eq_true, if_false, Bool.not_false, if_true]
      exact ⟨by simp [a], b, by rw [h254]; exact (by decide : shown 254 = 254)⟩

theorem same_drop {s s' : State} (h : Same s s') (c : Byte) (hc : isSpace c = true ∧ c = s.last) (h13 : c ≠ 13) : Same (append s c) s' := by
  obtain ⟨a, b, e⟩ := h
  unfold append
  rw [if_neg h13, if_pos hc.1, if_neg (by simpa using hc.2)]
  exact ⟨a, b, by simpa [← hc.2] using e⟩

theorem same_fold (text : List Byte) (s s' : State) (h : Same s s') :
    Same (text.foldl append s) ((kept s.last (text.filter (· ≠ 13))).foldl append s') := by
  induction text generalizing s s' with
  | nil => simpa [kept] using h
  | cons c cs ih =>
    by_cases hc : c = 13
    · subst hc
      simp only [List.foldl_cons, append]
      simpa using ih s s' h
    · have hl := (append_flat s c hc).2
      rw [List.foldl_cons, List.filter_cons_of_pos (by simpa using hc), kept]
      split
      · rename_i hd
        have := ih _ s' (same_drop h c hd hc)
        rw [hl] at this
        exact this
      · have := ih _ _ (same_append h c hc)
        rw [hl] at this
        exact this

/-- Tokenizing the concatenated tokens again gives the same tokens. -/
theorem C13_idempotent (text : List Byte) : tokens (tokens text).flatten = tokens text := by
  rw [C13_content]
  exact (same_flush (same_fold text init init ⟨rfl, rfl, rfl⟩)).symm

/-! ### C14 -/

/-- However the content is cut into reads, processing the reads one after the other gives the tokens of the whole content. -/
theorem C14_chunks (chunks : List (List Byte)) :
    (flush (chunks.foldl (fun s chunk => chunk.foldl append s) init)).tokens = tokens chunks.flatten := by
  rw [tokens, List.foldl_flatten]

theorem readLoop_eq (size : Nat) (h : 0 < size) (content : List Byte) (s : State) : readLoop size h content s = content.foldl append s := by
  fun_induction readLoop size h content s with
  | case1 content s hle ih => rw [ih, ← List.foldl_append, List.take_append_drop]
  | case2 content s hle => rfl

/-- The tokens of a file are the tokens of its content, whatever the buffer size. -/
theorem C14_file (size : Nat) (h : 0 < size) (content : List Byte) : fileTokens size h content = tokens content := by
  rw [fileTokens, readLoop_eq, tokens]

/-- Replacement of unprintable characters inside lines. -/
def lineShown (c : Byte) : Byte := if isPrint c then c else 254

theorem lineShown_eq (c : Byte) : (if c.toInt < 32 ∨ 126 < c.toInt then 254 else c) = lineShown c := by revert c; decide +kernel

/-- Reading a file as lines: the lines concatenate to the content (with unprintable characters inside lines shown as byte 254), completed by a final newline. -/
theorem C14_lines (content : List Byte) : (fileLines content).flatten =
    (content ++ (if content = [] ∨ content.getLast? = some 10 then [] else [10])).map (fun c => if c = 10 then c else lineShown c) := by
  rw [← getLines_flat, fileLines]
  have hn := getLines_no_newline 10 content
  generalize getLines 10 content = ls at hn
  induction ls with
  | nil => rfl
  | cons l ls ih =>
    simp only [List.map_cons, List.flatten_cons, List.map_append]
    rw [ih (fun l hl => hn l (List.mem_cons_of_mem _ hl))]
    congr 1
    simp only [List.map_nil, if_pos]
    congr 1
    apply List.map_congr_left
    intro c hc
    have : c ≠ 10 := by rintro rfl; exact hn l List.mem_cons_self hc
    rw [if_neg this, lineShown_eq]

/-- Every line ends with its only newline. -/
theorem C14_lines_shape (content : List Byte) : ∀ l ∈ fileLines content, ∃ body, l = body ++ [10] ∧ (10 : Byte) ∉ body := by
  intro l hl
  obtain ⟨b, hb, rfl⟩ := List.mem_map.mp hl
  refine ⟨_, rfl, ?_⟩
  intro h
  obtain ⟨c, hc, he⟩ := List.mem_map.mp h
  have hn := getLines_no_newline 10 content b hb
  by_cases h10 : c = 10
  · subst h10; exact hn hc
  · rw [lineShown_eq] at he
    revert he h10
    have : ∀ c : Byte, c ≠ 10 → lineShown c ≠ 10 := by decide +kernel
    intro he h10; exact this c h10 he

-- Concrete cases: "Hi  bob.\r\n3.5,\x07x"
example : tokens [72, 105, 32, 32, 98, 111, 98, 46, 13, 10, 51, 46, 53, 44, 7, 120] =
    [[72, 105], [32, 98, 111, 98], [46], [10, 51, 46, 53], [44], [254, 120]] := by decide
example : fileTokens 3 (by decide) [72, 105, 32, 32, 98] = [[72, 105], [32, 98]] := by rw [C14_file]; decide
example : fileLines [97, 9, 10, 10, 98] = [[97, 254, 10], [10], [98, 10]] := by decide

end Verif.Tokenizer
