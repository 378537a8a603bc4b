import Verif.Model.Execute
import Verif.Props.C51_C52_Encoders
import Verif.Props.C113_C114_Accuracy
import Mathlib.Tactic.FieldSimp
import Mathlib.Tactic.Ring

/-!
# Helper lemmas for executing a task on a dataset
-/

namespace Verif.Execute
open Verif.Encoders (Out Meta)
open Verif.TextCodec (Str)

variable {F : Type} [Field F] [LinearOrder F]

/-- Two columns are scaled alike: constants that are not used may differ. -/
def Alike (a b : Statistics.Column F) : Prop :=
  a.isStandardized = b.isStandardized ∧ a.isNormalized = b.isNormalized ∧ (a.isStandardized = true → a.mean = b.mean ∧ a.sd = b.sd) ∧
    (a.isNormalized = true → a.min = b.min ∧ a.max = b.max)

/-- The values of the column are not all the same. -/
def Proper (c : Statistics.Column F) : Prop := (c.isNormalized = true → c.min ≠ c.max) ∧ (c.isStandardized = true → c.sd ≠ 0)

theorem alike_encode {a b : Statistics.Column F} (h : Alike a b) (v : F) : Statistics.encode a v = Statistics.encode b v := by
  obtain ⟨h1, h2, h3, h4⟩ := h
  unfold Statistics.encode
  rw [← h1, ← h2]
  cases hs : a.isStandardized <;> cases hn : a.isNormalized
  · rfl
  · rw [(h4 hn).1, (h4 hn).2]; rfl
  · rw [(h3 hs).1, (h3 hs).2]; rfl
  · rw [(h3 hs).1, (h3 hs).2, (h4 hn).1, (h4 hn).2]

theorem alike_decode {a b : Statistics.Column F} (h : Alike a b) (v : F) : Statistics.decode a v = Statistics.decode b v := by
  obtain ⟨h1, h2, h3, h4⟩ := h
  unfold Statistics.decode
  rw [← h1, ← h2]
  cases hs : a.isStandardized <;> cases hn : a.isNormalized
  · rfl
  · rw [(h4 hn).1, (h4 hn).2]; rfl
  · rw [(h3 hs).1, (h3 hs).2]; rfl
  · rw [(h3 hs).1, (h3 hs).2, (h4 hn).1, (h4 hn).2]

omit [Field F] [LinearOrder F] in
theorem alike_refl (a : Statistics.Column F) : Alike a a := ⟨rfl, rfl, fun _ => ⟨rfl, rfl⟩, fun _ => ⟨rfl, rfl⟩⟩

theorem encode_decode (c : Statistics.Column F) (h : Proper c) (v : F) : Statistics.encode c (Statistics.decode c v) = some v := by
  obtain ⟨h1, h2⟩ := h
  unfold Statistics.encode Statistics.decode Statistics.standardize Statistics.normalize Statistics.denormalize Statistics.unstandardize Statistics.fdiv
  cases hs : c.isStandardized <;> cases hn : c.isNormalized
  · rfl
  · have : c.max - c.min ≠ 0 := sub_ne_zero.mpr (h1 hn).symm
    simp [this]
  · have := h2 hs
    simp [this]
  · have a := h2 hs
    have b : c.max - c.min ≠ 0 := sub_ne_zero.mpr (h1 hn).symm
    simp [a, b]

theorem renorm_alike (a b : Statistics.Column F) (h : Alike a b) (hp : Proper a) (t : Tensor (Option F)) : renorm a b t = t := by
  unfold renorm
  obtain ⟨rows, cols, chans, get⟩ := t
  simp only [Tensor.mk.injEq, true_and]
  funext r c k
  cases hg : get r c k with
  | none => rfl
  | some v => rw [Option.bind_some, ← alike_encode h, encode_decode a hp]

theorem renormAll_alike (target cols : List (Meta F)) (ts : List (Tensor (Option F))) (hl : ts.length = cols.length)
    (h : ∀ m ∈ cols, ∀ t ∈ target, Alike m.column t.column) (hp : ∀ m ∈ cols, Proper m.column) : renormAll target cols ts = ts := by
  unfold renormAll
  split
  · rfl
  · rename_i t rest
    induction cols generalizing ts with
    | nil => rw [List.length_nil, List.length_eq_zero_iff] at hl; rw [hl]; rfl
    | cons m ms ih =>
      cases ts with
      | nil => simp at hl
      | cons x xs =>
        rw [List.zipWith_cons_cons, renorm_alike _ _ (h m List.mem_cons_self t List.mem_cons_self) (hp m List.mem_cons_self)]
        congr 1
        exact ih xs (by simpa using hl) (fun m hm => hp m (List.mem_cons_of_mem _ hm)) fun m hm => h m (List.mem_cons_of_mem _ hm)

theorem collect_ok {A B : Type} (f : A → Out B) (P : A → B → Prop) (l : List A) (h : ∀ a ∈ l, ∃ b, f a = .ok b ∧ P a b) :
    ∃ bs, collect f l = .ok bs ∧ List.Forall₂ P l bs := by
  induction l with
  | nil => exact ⟨[], rfl, .nil⟩
  | cons a as ih =>
    obtain ⟨b, h1, h2⟩ := h a List.mem_cons_self
    obtain ⟨bs, h3, h4⟩ := ih fun a ha => h a (List.mem_cons_of_mem _ ha)
    refine ⟨b :: bs, ?_, .cons h2 h4⟩
    unfold collect andThen
    rw [h1]
    simp only [h3, Encoders.Out.map]

theorem showAll_ok (P : Meta F → Tensor (Option F) → Cell F → Prop) (ms : List (Meta F)) (ts : List (Tensor (Option F)))
    (h : List.Forall₂ (fun m t => ∃ c, showCell m t = .ok c ∧ P m t c) ms ts) :
    ∃ cs, showAll ms ts = .ok cs ∧ List.Forall₂ (fun (mt : Meta F × Tensor (Option F)) c => P mt.1 mt.2 c) (ms.zip ts) cs := by
  induction h with
  | nil => exact ⟨[], rfl, .nil⟩
  | cons h _ ih =>
    obtain ⟨c, h1, h2⟩ := h
    obtain ⟨cs, h3, h4⟩ := ih
    refine ⟨c :: cs, ?_, .cons h2 h4⟩
    unfold showAll andThen
    rw [h1]
    simp only [h3, Encoders.Out.map]

end Verif.Execute
