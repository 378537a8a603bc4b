import Verif.Lemmas.Parser

/-!
C45: parsing never throws; every script yields a program or an error message.

The code does throw for several scripts; the theorems settle where.
-/
namespace Verif.Parser
open Lexer
variable {F : Type} (stof : List Char → Option F)

/-- C45. Parsing always ends: with a program, an error message or an exception. -/
theorem C45_terminates_partial (ts : List Tok) : parseTokens stof ts ≠ .diverges := by
  have h := parseBlock_within stof (ts.length + 1) [] ts (by omega)
  unfold parseTokens
  cases hx : parseBlock stof (ts.length + 1) [] ts with
  | diverges => rw [hx] at h; exact h.elim
  | _ => simp

/-- C45. Scripts of `help`, `execute` and `exit` statements in any (also ill-formed) token order never throw, as long as
every number token in them can be converted. -/
theorem C45_calm_partial (ts : List Tok) (hn : ∀ t ∈ ts, t.label = "_number" → (stof t.value).isSome)
    (hp : ∀ t ∈ ts, t.label ≠ "_print" ∧ t.label ≠ "_create") :
    parseTokens stof ts = .errorMessage ∨ ∃ stmts, parseTokens stof ts = .program stmts := by
  have key : ∀ (fuel : Nat) (acc : List (Stmt F)) (us : List Tok), us <:+ ts →
      Calm (parseBlock stof fuel acc us) := by
    intro fuel
    induction fuel with
    | zero => intro acc us _; trivial
    | succ f ih =>
      intro acc us hs
      cases us with
      | nil => trivial
      | cons t us =>
        have ht : t ∈ ts := hs.subset (by simp)
        have hus : us <:+ ts := (List.suffix_cons t us).trans hs
        unfold parseBlock
        unfold parseStatement
        split
        · exact ih _ us hus
        · split
          · cases us with
            | nil => exact ih _ [] hus
            | cons x us => exact ih _ us ((List.suffix_cons x us).trans hus)
          · rw [if_neg (hp t ht).1, if_neg (hp t ht).2]
            split
            · have hl := parseExecute_leaves (stof := stof) us
              have hc := parseExecute_calm (stof := stof) us (fun x hx => hn x (hus.subset hx))
              cases hx : parseExecute stof us with
              | ok s rest => rw [hx] at hl; exact ih _ rest (List.IsSuffix.trans hl hus)
              | error => trivial
              | runtimeError => rw [hx] at hc; exact hc.elim
              | logicError => rw [hx] at hc; exact hc.elim
              | diverges => trivial
            · split
              · exact ih _ us hus
              · trivial
  have h := key (ts.length + 1) [] ts (List.suffix_refl ts)
  have hd := C45_terminates_partial stof ts
  unfold parseTokens at hd ⊢
  cases hx : parseBlock stof (ts.length + 1) [] ts with
  | ok stmts rest => exact Or.inr ⟨stmts, rfl⟩
  | error => exact Or.inl rfl
  | runtimeError => rw [hx] at h; exact h.elim
  | logicError => rw [hx] at h; exact h.elim
  | diverges => rw [hx] at hd; exact (hd rfl).elim

/-- Such a script, with an error in it. -/
example : parseTokens (fun _ => some (0 : Nat))
    [⟨"_execute", "execute".toList⟩, ⟨"_task", "task".toList⟩, ⟨"_word", "t".toList⟩, ⟨"_using", "using".toList⟩,
     ⟨"_input", "input".toList⟩, ⟨"_open_parenthesis", "(".toList⟩, ⟨"_word", "x".toList⟩, ⟨"_colon", ":".toList⟩,
     ⟨"_number", "1".toList⟩] = .errorMessage := by decide +kernel

/-- C45 for `print`: it throws exactly when the name is missing, or when `limit` is not followed by a number that fits
an `int`. -/
theorem C45_print_partial (ts : List Tok) :
    (parsePrint (F := F) ts = .runtimeError ∨ parsePrint (F := F) ts = .logicError) ↔
      ∃ t rest, ts = t :: rest ∧ (t.value = "raw".toList ∨ t.value = "pretty".toList) ∧
        (rest = [] ∨ ∃ name l more, rest = name :: l :: more ∧ l.label = "_limit" ∧
          ∀ n more', more = n :: more' → stoi n.value = none) := by
  cases ts with
  | nil => simp [parsePrint]
  | cons t ts =>
    unfold parsePrint
    dsimp only
    by_cases hv : t.value ≠ "raw".toList ∧ t.value ≠ "pretty".toList
    · rw [if_pos hv]
      constructor
      · intro h; simp at h
      · rintro ⟨t', rest, he, h1, -⟩
        simp only [List.cons.injEq] at he
        obtain ⟨rfl, rfl⟩ := he
        rcases h1 with h1 | h1
        · exact (hv.1 h1).elim
        · exact (hv.2 h1).elim
    · rw [if_neg hv]
      have hv' : t.value = "raw".toList ∨ t.value = "pretty".toList := by tauto
      match ts with
      | [] =>
        constructor
        · intro _; exact ⟨t, [], rfl, hv', Or.inl rfl⟩
        · intro _; exact Or.inr rfl
      | [name] =>
        constructor
        · intro h; simp [next, R.bind] at h
        · rintro ⟨t', rest, he, -, h⟩
          simp only [List.cons.injEq] at he
          obtain ⟨rfl, rfl⟩ := he
          rcases h with h | ⟨_, _, _, h, -⟩ <;> simp at h
      | name :: l :: more =>
        simp only [next, R.bind]
        by_cases hl : l.label = "_limit"
        · simp only [hl, ne_eq, not_true_eq_false, if_false]
          constructor
          · intro h
            refine ⟨t, _, rfl, hv', Or.inr ⟨name, l, more, rfl, hl, ?_⟩⟩
            rintro n more' rfl
            simp only [nextNumber] at h
            cases hs : stoi n.value with
            | none => rfl
            | some k => rw [hs] at h; simp at h
          · rintro ⟨t', rest, he, -, h⟩
            simp only [List.cons.injEq] at he
            obtain ⟨rfl, rfl⟩ := he
            rcases h with h | ⟨_, _, _, h, -, h2⟩
            · simp at h
            · simp only [List.cons.injEq] at h
              obtain ⟨rfl, rfl, rfl⟩ := h
              cases more with
              | nil => left; rfl
              | cons n more' => left; simp [nextNumber, h2 n more' rfl]
        · simp only [ne_eq, hl, not_false_eq_true, if_true]
          constructor
          · intro h; simp at h
          · rintro ⟨t', rest, he, -, h⟩
            simp only [List.cons.injEq] at he
            obtain ⟨rfl, rfl⟩ := he
            rcases h with h | ⟨_, _, _, h, h2, -⟩
            · simp at h
            · simp only [List.cons.injEq] at h
              obtain ⟨rfl, rfl, rfl⟩ := h
              exact (hl h2).elim

/-- A stand-in for `stof`: the digits are counted; text without a digit is refused, as `stof` does. -/
def stofExample (v : List Char) : Option Nat := if v.any Char.isDigit then some (v.filter Char.isDigit).length else none

/-- C45 does not hold: these scripts make the parser throw. Truncated statements run past the end of the token
stream; a limit that is not a number and an input value that `stof` refuses (a lone dot is a number token, and so is
the keyword `number`) throw as well. -/
theorem C45_violated :
    parseScript stofExample "print raw".toList = .exception ∧
    parseScript stofExample "print raw d limit".toList = .exception ∧
    parseScript stofExample "print raw d limit all".toList = .exception ∧
    parseScript stofExample "create task label t with goal speed".toList = .exception ∧
    parseScript stofExample "create dataset d with given label x".toList = .exception ∧
    parseScript stofExample "create dataset d with given label x (2, 2".toList = .exception ∧
    parseScript stofExample "create dataset d with header using".toList = .exception ∧
    parseScript stofExample "create dataset d using file://".toList = .exception ∧
    parseScript stofExample "execute task t using input (x: .)".toList = .exception ∧
    parseScript stofExample "execute task t using input (x: number)".toList = .exception := by decide +kernel

end Verif.Parser
