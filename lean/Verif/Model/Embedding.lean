import Verif.Model.Bpe
import Verif.Model.Tokenizer
import Verif.Model.OneHot
import Verif.Model.Encoders
import Mathlib.Analysis.SpecialFunctions.Trigonometric.Basic
import Mathlib.Analysis.SpecialFunctions.Log.Basic

/-!
# Embedding text (`src/ml/rotary_positional_embedding.hpp`, `src/util/text_embedder.hpp`)

Numbers are real. The loops over `unsigned int` are those of sizes below 2^32.
-/

namespace Verif.Embedding
open Verif.Encoders (Out)
open Real

/-- The fields of an `Embedder` (rotary_positional_embedding.hpp:33-78); the table of a `RotaryPositionalEmbedder` is determined by them. -/
structure Embedder where
  seq : Nat
  dim : Nat

/-- rotary_positional_embedding.hpp:86. -/
def evenDim (d : Nat) : Nat := d + d % 2

/-- rotary_positional_embedding.hpp:88-96. -/
noncomputable def constants (d : Nat) : List ℝ :=
  (List.range (evenDim d / 2)).flatMap fun h =>
    [sin (1 / exp ((2 * h : Nat) * (1 / log 10000))), cos (1 / exp ((2 * h : Nat) * (1 / log 10000)))]

/-- `positional_encoding`, rotary_positional_embedding.hpp:97-105. -/
noncomputable def positional (e : Embedder) : List (List ℝ) :=
  (List.range e.seq).map fun (pos : Nat) => (List.range (evenDim e.dim / 2)).flatMap fun h =>
    [sin ((pos : ℝ) * (constants e.dim).getD (2 * h) 0), cos ((pos : ℝ) * (constants e.dim).getD (2 * h + 1) 0)]

/-- `RotaryPositionalEmbedder::embed_token`, rotary_positional_embedding.hpp:113-127. The indices of line 124 are within the table, because of the two checks
before. -/
noncomputable def embedToken (e : Embedder) (token : List ℝ) (position : Nat) : Out (List ℝ) :=
  if e.seq ≤ position then .throws
  else if e.dim < token.length then .throws
  else .ok ((List.range e.dim).map fun i => match token[i]? with
    | some x => x + ((positional e).getD position []).getD i 0
    | none => 0)

/-- `embed_tokens`, rotary_positional_embedding.hpp:55-67, from `position` on. -/
noncomputable def embedLoop (e : Embedder) : List (List ℝ) → Nat → Out (List (List ℝ))
  | [], _ => .ok []
  | t :: ts, position =>
    match embedToken e t position with
    | .throws => .throws
    | .undefined => .undefined
    | .ok v => if e.seq ≤ position + 1 then .ok [v] else (embedLoop e ts (position + 1)).map (v :: ·)

noncomputable def embedTokens (e : Embedder) (tokens : List (List ℝ)) : Out (List (List ℝ)) := embedLoop e tokens 0

/-- `calculate_result_shape`, rotary_positional_embedding.hpp:71-73. -/
def resultShape (e : Embedder) : Nat × Nat := (e.seq, e.dim)

/-- The codes of a text: `string_to_tokens` and `encode` for several tokens, byte_pair_encoder.hpp:72-79, in text_embedder.hpp:24-28. -/
def textCodes (m : Bpe.Model) (text : List (BitVec 8)) : List (List (BitVec 16)) := (Tokenizer.tokens text).map (Bpe.encode m)

/-- `text_to_tensor_bpe_rotary`, text_embedder.hpp:20-38; `getLargestCode` is the next code (byte_pair_encoder.hpp:371-373). -/
noncomputable def embedText (m : Bpe.Model) (e : Embedder) (text : List (BitVec 8)) : Out (List (List ℝ)) :=
  match OneHot.bpe (textCodes m text) m.next.toNat with
  | none => .undefined
  | some rows => embedTokens e (rows.map fun r => r.map fun (x : Nat) => (x : ℝ))

end Verif.Embedding
