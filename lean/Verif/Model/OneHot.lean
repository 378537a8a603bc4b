/-!
Model of /repo/src/util/one_hot_encoder.hpp 18-84. A write through `operator[]` outside a vector is undefined behaviour: result `none`. Vector entries are natural
numbers 0 and 1 (the code's floats 0.0 and 1.0).
-/
namespace Verif.OneHot

/-- `vector<float> v(size, 0.0)`. -/
def zeros (size : Nat) : List Nat := List.replicate size 0

/-- `v[i] = 1.0`. -/
def mark (v : List Nat) (i : Nat) : Option (List Nat) := if i < v.length then some (v.set i 1) else none

/-- The body of the inner loop of `one_hot_encode_bpe_tokens`, one_hot_encoder.hpp 41-45. -/
def bpeRow (largest : Nat) (c : BitVec 16) : Option (List Nat) :=
  if c.toNat ≤ largest then mark (zeros largest) c.toNat else some (zeros largest)

/-- `one_hot_encode_bpe_tokens`, one_hot_encoder.hpp 33-49. -/
def bpe (tokens : List (List (BitVec 16))) (largest : Nat) : Option (List (List Nat)) := tokens.flatten.mapM (bpeRow largest)

/-- The body of the inner loop of `one_hot_encode_characters`, one_hot_encoder.hpp 58-60: `char` is signed, so a negative character becomes an index near 2^64. -/
def charRow (c : BitVec 8) : Option (List Nat) := mark (zeros 255) (c.toInt % 2 ^ 64).toNat

/-- `one_hot_encode_characters`, one_hot_encoder.hpp 51-64. -/
def characters (tokens : List (List (BitVec 8))) : Option (List (List Nat)) := tokens.flatten.mapM charRow

/-- The body of the loop of `one_hot_encode_words`, one_hot_encoder.hpp 77-81. The vocabulary is an association list with distinct keys; a negative index becomes
an index near 2^64. -/
def wordRow {W : Type} [DecidableEq W] (vocab : List (W × Int)) (token : W) : Option (List Nat) :=
  match vocab.lookup token with
  | some i => mark (zeros vocab.length) (i % 2 ^ 64).toNat
  | none => some (zeros vocab.length)

/-- `one_hot_encode_words`, one_hot_encoder.hpp 66-84. -/
def words {W : Type} [DecidableEq W] (tokens : List W) (vocab : List (W × Int)) : Option (List (List Nat)) := tokens.mapM (wordRow vocab)

/-- `pad_or_truncate_tokens`, one_hot_encoder.hpp 18-31. -/
def padOrTruncate {F : Type} (zero : F) (tokens : List (List F)) (target size : Nat) : List (List F) :=
  if target < tokens.length then tokens.take target
  else if tokens.length < target then
    (List.range (target - tokens.length)).foldl (fun t _ => t ++ [List.replicate size zero]) tokens
  else tokens

end Verif.OneHot
