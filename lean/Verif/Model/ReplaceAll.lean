/-
Model of `string_replace_all` and `u16string_replace_all_to_buffer`, `/repo/src/util/data_util.hpp:242-330`. Both are the same loop over
different character types, so the model is generic in the character type.
-/
namespace Verif.ReplaceAll

variable {α : Type} [DecidableEq α]

/-- `basic_string::find(pat, pos)` on the suffix starting at `pos`, as an offset from `pos`; `none` is `npos`. -/
def find (pat : List α) : List α → Option Nat
  | [] => if pat = [] then some 0 else none
  | c :: cs => if pat.isPrefixOf (c :: cs) then some 0 else (find pat cs).map (· + 1)

/-- data_util.hpp:265-280 and 313-328: the `while (start_pos < original_length)` loop. `hp` is the check of lines 250-253 / 299-301. -/
def loop (s pat rep : List α) (hp : 0 < pat.length) (start_pos : Nat) (result : List α) : List α :=
  if start_pos < s.length then
    match find pat (s.drop start_pos) with
    | none => result ++ s.drop start_pos
    | some k => loop s pat rep hp (start_pos + k + pat.length) (result ++ (s.drop start_pos).take k ++ rep)
  else result
termination_by s.length - start_pos

/-- data_util.hpp:242-280 `u16string_replace_all_to_buffer`, 291-330 `string_replace_all` -/
def replaceAll (s pat rep : List α) : List α :=
  if hp : 0 < pat.length then loop s pat rep hp 0 [] else s

end Verif.ReplaceAll
