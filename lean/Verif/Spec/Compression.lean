import Verif.Model.Bpe

/-!
# What byte-pair training should learn: specification

`seen a b texts` is the number of places in the texts where `b` directly follows `a`.
-/
namespace Verif.Bpe

/-- How often `b` follows `a` in the texts. -/
def seen (texts : List Str16) (p : BitVec 16 × BitVec 16) : Nat := (texts.map fun s => (s.zip s.tail).count p).sum

/-- The characters of a code table that the learned pairs `l` get when the first free code is `first`. -/
def learned (first : BitVec 16) (l : List (BitVec 16 × BitVec 16)) : List (Str16 × Str16) :=
  l.mapIdx fun i p => ([p.1, p.2], [first + BitVec.ofNat 16 i])

end Verif.Bpe
