import Verif.Model.ReplaceAll
import Mathlib.Data.List.Sort

/-
Model of `/repo/src/ml/byte_pair_encoder.hpp` (`BytePairEncoderModel`). `char` is `BitVec 8` (signed on the platforms the project is
built for, so widening to `char16_t` sign-extends), `char16_t` is `BitVec 16`.

Simplifications: progress output is left out; the early-stopping decision of lines 319-333 (a floating point comparison of compression rates) is an
arbitrary yes/no oracle per iteration, so the theorems hold whatever it decides; the random train/validation split of line 231 is outside (`train` receives the
training part); frequency counters are natural numbers except for the subtraction of line 427, which wraps modulo 2^64 as in C++.
-/
namespace Verif.Bpe
open Verif.ReplaceAll

abbrev Str16 := List (BitVec 16)
abbrev Str8 := List (BitVec 8)

/-- implicit conversion `char` → `char16_t` at byte_pair_encoder.hpp:88 -/
def widen (c : BitVec 8) : BitVec 16 := c.signExtend 16
/-- implicit conversion `char16_t` → `char` at byte_pair_encoder.hpp:120 -/
def narrow (c : BitVec 16) : BitVec 8 := c.setWidth 8

/-- byte_pair_encoder.hpp:585-591, the fields that matter -/
structure Model where
  table : List (Str16 × Str16)   -- ordered_bpe_codes_: (pattern, code)
  delim : BitVec 16              -- delimiter_code_
  next : BitVec 16               -- next_code_
deriving DecidableEq

/-- byte_pair_encoder.hpp:31-38, 595-599 constructor / `setDelimiterCode` -/
def new (delim : BitVec 16) : Model := ⟨[], delim, delim + 1⟩

/-- data_util.hpp:332-341 `find_max_16bit_value` -/
def findMax16 (s : Str16) : BitVec 16 :=
  s.foldl (fun m c => if m < c ∧ c < 0x7FFF#16 then c else m) 0#16

/-- byte_pair_encoder.hpp:55-59 and 249-254: raise `next_code_` above every value in the table (`uint16_t` arithmetic) -/
def bumpNext (table : List (Str16 × Str16)) (next : BitVec 16) : BitVec 16 :=
  table.foldl (fun next e =>
    let a := findMax16 e.1
    let b := findMax16 e.2
    let n := (if a < b then b else a) + 1
    if n < next then next else n) next

/-- `operator>` on `u16string`: lexicographic -/
def gt16 : Str16 → Str16 → Bool
  | [], _ => false
  | _ :: _, [] => true
  | a :: as, b :: bs => if b < a then true else if a < b then false else gt16 as bs

/-- byte_pair_encoder.hpp:50-53 and 354-357: sort by code, descending. (`std::sort` leaves the order of equal codes open; codes are pairwise
different in every table the theorems speak about.) -/
def sortCodes (l : List (Str16 × Str16)) : List (Str16 × Str16) :=
  l.insertionSort (fun a b => gt16 b.2 a.2 = false)

/-- byte_pair_encoder.hpp:65-70, 47-60 `configure` (= `setDelimiterCode` then `setBpeCodes`) -/
def configure (codes : List (Str16 × Str16)) (delim : BitVec 16) : Model :=
  ⟨sortCodes codes, delim, bumpNext (sortCodes codes) (delim + 1)⟩

/-- byte_pair_encoder.hpp:84-105 `encode`: replacements applied from the back of the table to the front -/
def encode (m : Model) (token : Str8) : Str16 :=
  if token = [] then []
  else m.table.reverse.foldl (fun s e => replaceAll s e.1 e.2) ([m.delim] ++ token.map widen ++ [m.delim])

/-- byte_pair_encoder.hpp:110-122 `decode`; `none` is undefined behaviour (line 120 builds a string from a reversed range). -/
def decode (m : Model) (encoded : Str16) : Option Str8 :=
  if encoded = [] then some []
  else
    let decoded := m.table.foldl (fun s e => replaceAll s e.2 e.1) encoded
    if decoded.length < 2 then none else some ((decoded.drop 1).dropLast.map narrow)

/-! ### training -/

abbrev Vocab := List (Str16 × Nat)

/-- `unordered_map::emplace_hint(end, k, v)`: insert unless the key exists -/
def emplace {β : Type} (v : List (Str16 × β)) (k : Str16) (n : β) : List (Str16 × β) :=
  if k ∈ v.map Prod.fst then v else v ++ [(k, n)]

/-- `++` on the entry with key `k` if there is one, else insert it with value 1 (byte_pair_encoder.hpp:395-400, 457-463) -/
def countUp (v : Vocab) (k : Str16) : Vocab :=
  if k ∈ v.map Prod.fst then v.map (fun e => if e.1 = k then (e.1, e.2 + 1) else e) else v ++ [(k, 1)]

/-- `map[k] = x` -/
def mapSet (codes : List (Str16 × Str16)) (k x : Str16) : List (Str16 × Str16) :=
  if k ∈ codes.map Prod.fst then codes.map (fun e => if e.1 = k then (e.1, x) else e) else codes ++ [(k, x)]

/-- adjacent pairs of a string, byte_pair_encoder.hpp:454-455 -/
def pairs : Str16 → List Str16
  | a :: b :: rest => [a, b] :: pairs (b :: rest)
  | _ => []

/-- byte_pair_encoder.hpp:445-467 `buildVocab`; `none` is the out-of-bounds access for an empty token (`line16.size() - 1` wraps) -/
def buildVocab (m : Model) (tokens : List Str8) : Option Vocab :=
  tokens.foldl (fun acc t => acc.bind (fun v =>
    if encode m t = [] then none else some ((pairs (encode m t)).foldl countUp v))) (some [])

/-- byte_pair_encoder.hpp:473-482 `findMostFrequentPair` -/
def findMostFrequentPair (v : Vocab) (minFreq : Nat) : Str16 × Nat :=
  v.foldl (fun best e => if 1 < e.1.length ∧ best.2 < e.2 ∧ minFreq ≤ e.2 then e else best) ([], 0)

/-- `find(pat) != npos` -/
def occurs (pat s : Str16) : Bool := (find pat s).isSome

/-- byte_pair_encoder.hpp:424-433, one entry -/
def updateEntry (mf : Str16 × Nat) (code : Str16) (nv : Vocab) (e : Str16 × Nat) : Vocab :=
  if occurs mf.1 e.1 then
    if 0 < (e.2 + 2 ^ 64 - mf.2) % 2 ^ 64 then emplace nv (replaceAll e.1 mf.1 code) ((e.2 + 2 ^ 64 - mf.2) % 2 ^ 64) else nv
  else
    if 0 < e.2 then emplace nv e.1 e.2 else nv

/-- byte_pair_encoder.hpp:413-439 `updateCodeForMostFrequentPair` -/
def updateCode (v : Vocab) (mf : Str16 × Nat) (code : Str16) : Vocab :=
  emplace ((v.filter (fun e => e.1 ≠ mf.1)).foldl (updateEntry mf code) []) code mf.2

/-- byte_pair_encoder.hpp:379-407 `mergePairs` -/
def mergePairs (v : Vocab) (pat code : Str16) : Vocab :=
  v.foldl (fun nv e =>
    if occurs pat e.1 then countUp nv (replaceAll e.1 pat code) else emplace nv e.1 e.2) []

/-- What the environment decides: the iteration order of the hash maps (any permutation, per use) and early stopping. -/
structure Oracle where
  ord : Nat → Vocab → Vocab
  perm : ∀ i v, (ord i v).Perm v
  stop : Nat → Bool

/-- byte_pair_encoder.hpp:296-352, the `while` loop of `train_on_vocab`; `none` = not finished within `fuel` iterations. -/
def trainLoop (o : Oracle) (minFreq numMerges : Nat) :
    Nat → Nat → Vocab → List (Str16 × Str16) → BitVec 16 → Option (List (Str16 × Str16) × BitVec 16)
  | 0, _, _, _, _ => none
  | fuel + 1, mc, v, codes, next =>
    if v ≠ [] ∧ (mc < 1 ∨ mc < numMerges) then
      let mf := findMostFrequentPair (o.ord (3 * mc) v) minFreq
      if mf.2 = 0 then some (codes, next)
      else if o.stop mc then some (codes, next)
      else
        let code : Str16 := [next]
        let codes := mapSet codes mf.1 code
        let v := updateCode (o.ord (3 * mc + 1) v) mf code
        let v := mergePairs (o.ord (3 * mc + 2) v) mf.1 code
        let next := next + 1
        if 0x7FFE#16 ≤ next then some (codes, next)
        else trainLoop o minFreq numMerges fuel (mc + 1) v codes next
    else some (codes, next)

/-- byte_pair_encoder.hpp:217-280 + 282-359 `train`. `numMerges` is the `int` argument converted to `size_t` (-1 becomes 2^64-1). The outer `none` is
undefined behaviour or exceeding `fuel`. -/
def train (o : Oracle) (minFreq numMerges fuel : Nat) (m : Model) (data : List Str8) : Option Model :=
  (buildVocab m data).bind fun vocab =>
    (trainLoop o minFreq numMerges fuel 0 vocab (m.table.foldl (fun c e => mapSet c e.1 e.2) [])
        (bumpNext m.table m.next)).map
      fun r => ⟨sortCodes r.1, m.delim, r.2⟩

/-- byte_pair_encoder.hpp:127-151 `train_on_file` / 155-203 `train_on_folder`: same loop, empty initial code map, vocabulary built from files. -/
def trainOnVocab (o : Oracle) (fuel : Nat) (m : Model) (vocab : Vocab) : Option Model :=
  (trainLoop o 2 (2 ^ 64 - 1) fuel 0 vocab [] m.next).map fun r => ⟨sortCodes r.1, m.delim, r.2⟩

/-! ### save / load -/

/-- `file.write` of a `uint16_t` (little endian platforms) -/
def le16 (x : BitVec 16) : Str8 := [x.setWidth 8, (x >>> 8).setWidth 8]
/-- reading it back -/
def unle16 (a b : BitVec 8) : BitVec 16 := b ++ a

/-- byte_pair_encoder.hpp:537-542: one string: 16-bit length (truncated) and that many characters -/
def saveStr (s : Str16) : Str8 :=
  le16 (BitVec.ofNat 16 s.length) ++ (s.take (s.length % 65536)).flatMap le16

/-- byte_pair_encoder.hpp:534-543: the bytes written by `save` -/
def saveBytes (m : Model) : Str8 :=
  le16 m.delim ++ m.table.flatMap (fun e => saveStr e.1 ++ saveStr e.2)

/-- read `n` characters; `none` = end of file reached (eofbit set) -/
def readChars : Nat → Str8 → Option (Str16 × Str8)
  | 0, bs => some ([], bs)
  | n + 1, a :: b :: bs => (readChars n bs).map fun r => (unle16 a b :: r.1, r.2)
  | _ + 1, _ => none

/-- byte_pair_encoder.hpp:564-573: read one length-prefixed string; `none` = end of file reached -/
def readStr : Str8 → Option (Str16 × Str8)
  | a :: b :: bs => readChars (unle16 a b).toNat bs
  | _ => none

/-- byte_pair_encoder.hpp:561-579: the loop reading pairs until end of file. Each successful iteration consumes at least 4 bytes. -/
def readPairs : Nat → Str8 → List (Str16 × Str16)
  | 0, _ => []
  | fuel + 1, bs =>
    match readStr bs with
    | none => []
    | some (p, bs1) =>
      match readStr bs1 with
      | none => []
      | some (c, bs2) => (p, c) :: readPairs fuel bs2

/-- byte_pair_encoder.hpp:549-583 `load` on a file with content `bs` (a file shorter than two bytes leaves the missing bytes of the
delimiter zero); the pairs are appended to the table the object already has, and `next_code_` becomes delimiter + 1. -/
def load (m : Model) (bs : Str8) : Model :=
  match bs with
  | a :: b :: rest => ⟨m.table ++ readPairs (rest.length + 1) rest, unle16 a b, unle16 a b + 1⟩
  | [a] => ⟨m.table, unle16 a 0#8, unle16 a 0#8 + 1⟩
  | [] => ⟨m.table, 0#16, 0#16 + 1⟩

end Verif.Bpe
