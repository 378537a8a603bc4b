/-
Model of `/repo/src/util/text_encoder_decoder.hpp`. Strings are `List UInt8`. The index loop of `decodeString` is modelled as recursion on
the remaining suffix: the test `i + k < str.size()` is "the suffix starting at `i` has more than `k` elements".
-/
namespace Verif.TextCodec

abbrev Str := List UInt8

def LT : UInt8 := 60 -- '<'
def GT : UInt8 := 62 -- '>'
def US : UInt8 := 95 -- '_'
def TI : UInt8 := 126 -- '~'
def D : UInt8 := 68 -- 'D'
def N : UInt8 := 78 -- 'N'
def NL : UInt8 := 10 -- '\n'

/-- text_encoder_decoder.hpp:21-29, one character -/
def encodeChar (delimiter c : UInt8) : Str :=
  if c = LT then [LT, US, LT]
  else if c = delimiter then [LT, TI, D, GT]
  else if c = NL then [LT, TI, N, GT]
  else [c]

/-- text_encoder_decoder.hpp:18-32 `encodeString` -/
def encode (delimiter : UInt8) : Str → Str
  | [] => []
  | c :: cs => encodeChar delimiter c ++ encode delimiter cs

/-- text_encoder_decoder.hpp:34-67 `decodeString` -/
def decode (delimiter : UInt8) : Str → Str
  | [] => []
  | x :: a :: b :: rest2 =>                      -- line 37: `i + 2 < size` holds
    if x = LT then
      if a = US then                             -- 39-47
        if b = LT then LT :: decode delimiter rest2
        else if b = US then LT :: US :: decode delimiter rest2
        else LT :: b :: decode delimiter rest2
      else
        match rest2 with
        | d :: rest3 =>
          if a = TI then                         -- 48-58 (`i + 2 < size` holds)
            if b = D ∧ d = GT then delimiter :: decode delimiter rest3
            else if b = N ∧ d = GT then NL :: decode delimiter rest3
            else LT :: b :: decode delimiter (d :: rest3)
          else LT :: a :: decode delimiter (b :: d :: rest3)   -- 59-61
        | [] => LT :: a :: decode delimiter [b]  -- 59-61, also when `a = '~'` is too close to the end
    else x :: decode delimiter (a :: b :: rest2) -- 62-64
  | x :: s => x :: decode delimiter s            -- line 37 fails: too close to the end
  termination_by s => s.length

end Verif.TextCodec
