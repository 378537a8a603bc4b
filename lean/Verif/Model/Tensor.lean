/-
Tensors of `/repo/src/types/base_tensors.hpp`, seen through their virtual interface
(`rowCount`, `columnCount`, `channelCount`, `getValue(row, column, channel)`, base_tensors.hpp:60-118).

`get` is a total function. Out-of-range arguments are *not* given any particular value: theorems quantify over all `get`,
so a view that looked outside its child's range would have results depending on the arbitrary values there, and could not
satisfy a specification that mentions in-range elements only. Element type `F` is a parameter: bit patterns for the file formats,
an ordered field for numerical claims.
-/
namespace Verif

structure Tensor (F : Type) where
  rows : Nat
  cols : Nat
  chans : Nat
  get : Nat → Nat → Nat → F

namespace Tensor
variable {F : Type}

/-- Same shape and same elements; the observable equality of two tensors. -/
def Same (a b : Tensor F) : Prop :=
  a.rows = b.rows ∧ a.cols = b.cols ∧ a.chans = b.chans ∧
    ∀ r c k, r < a.rows → c < a.cols → k < a.chans → a.get r c k = b.get r c k

/-- base_tensors.hpp `size()` -/
def size (t : Tensor F) : Nat := t.rows * t.cols * t.chans

theorem Same.refl (a : Tensor F) : Same a a := ⟨rfl, rfl, rfl, fun _ _ _ _ _ _ => rfl⟩

theorem Same.symm {a b : Tensor F} (h : Same a b) : Same b a := by
  obtain ⟨h1, h2, h3, h4⟩ := h
  exact ⟨h1.symm, h2.symm, h3.symm, fun r c k hr hc hk => (h4 r c k (h1 ▸ hr) (h2 ▸ hc) (h3 ▸ hk)).symm⟩

theorem Same.trans {a b c : Tensor F} (h : Same a b) (h' : Same b c) : Same a c := by
  obtain ⟨h1, h2, h3, h4⟩ := h
  obtain ⟨g1, g2, g3, g4⟩ := h'
  exact ⟨h1.trans g1, h2.trans g2, h3.trans g3,
    fun r c k hr hc hk => (h4 r c k hr hc hk).trans (g4 r c k (h1 ▸ hr) (h2 ▸ hc) (h3 ▸ hk))⟩

end Tensor
end Verif
