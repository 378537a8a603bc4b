import Verif.Model.Dsl
import Verif.Props.C101_Decimal

/-! The records of a description are read back. -/

namespace Verif.Dsl
open Verif.TextCodec Verif.Decimal Verif.Enums

/-- All numbers of a vertex fit into their C++ types, and its floats survive being written with 15 decimals. -/
def Fits (x : Vertex) : Prop :=
  x.bits < 2 ^ 8 ∧ x.inShapes.length < 2 ^ 64 ∧ (∀ s ∈ x.inShapes, s.rows < 2 ^ 64 ∧ s.cols < 2 ^ 64 ∧ s.chans < 2 ^ 64) ∧
  (x.outShape.rows < 2 ^ 64 ∧ x.outShape.cols < 2 ^ 64 ∧ x.outShape.chans < 2 ^ 64) ∧ x.filters < 2 ^ 64 ∧ x.kernel < 2 ^ 64 ∧
  Survives x.clipAt ∧ Survives x.dropout ∧ Survives x.strength

instance (x : Vertex) : Decidable (Fits x) := by unfold Fits; infer_instance

theorem kind_text (k : LayerType) : stringToNodeType (untext (text (nodeTypeToString k))) = some k := by cases k <;> decide +kernel
theorem act_text (k : ActivationType) : stringToActivationType (untext (text (activationTypeToString k))) = some k := by cases k <;> decide +kernel
theorem loss_text (k : LossType) : stringToLossType (untext (text (lossTypeToString k))) = some k := by cases k <;> decide +kernel
theorem optimizer_text (k : OptimizerType) : stringToOptimizerType (untext (text (optimizerTypeToString k))) = some k := by cases k <;> decide +kernel

theorem readShapes_fields (l : List Shape) (h : ∀ s ∈ l, s.rows < 2 ^ 64 ∧ s.cols < 2 ^ 64 ∧ s.chans < 2 ^ 64) (r : List Str) :
    readShapes l.length (l.flatMap shapeFields ++ r) = some (l, r) := by
  induction l with
  | nil => rfl
  | cons s l ih =>
    obtain ⟨h1, h2, h3⟩ := h s List.mem_cons_self
    rw [List.length_cons, List.flatMap_cons, List.append_assoc]
    show readShapes (l.length + 1) (dec s.rows :: dec s.cols :: dec s.chans :: (l.flatMap shapeFields ++ r)) = _
    rw [readShapes, stoull_dec _ h1, stoull_dec _ h2, stoull_dec _ h3, ih fun s hs => h s (List.mem_cons_of_mem _ hs)]

theorem readVertex_row (id : Nat) (x : Vertex) (h : Fits x) : readVertex (vertexRow id x) = some x := by
  obtain ⟨h1, h2, h3, ⟨h4, h5, h6⟩, h7, h8, h9, h10, h11⟩ := h
  unfold vertexRow
  rw [List.append_assoc, List.append_assoc]
  show readVertex (_ :: _ :: _ :: _ :: _ :: _ :: _ :: _ :: _ :: _ :: (x.inShapes.flatMap shapeFields ++ _)) = _
  rw [readVertex, kind_text, act_text, stoull_dec _ (by omega), stoull_dec _ h2]
  dsimp only
  rw [readShapes_fields _ h3]
  simp only [Option.bind_some, shapeFields, List.cons_append, List.nil_append]
  rw [readTail, stoull_dec _ h4, stoull_dec _ h5, stoull_dec _ h6, stoull_dec _ h7, stoull_dec _ h8, C101_partial _ h9, C101_partial _ h10, C101_partial _ h11]
  simp only [asBool_asString, Nat.mod_eq_of_lt h1]

theorem readId_dec (n : Nat) (h : n < 2 ^ 32) : readId (dec n) = some n := by
  unfold readId
  rw [stoull_dec _ (by omega), Option.map_some, Nat.mod_eq_of_lt h]

theorem readIds_dec (l : List Nat) (h : ∀ n ∈ l, n < 2 ^ 32) : (l.map dec).mapM readId = some l := by
  induction l with
  | nil => rfl
  | cons n l ih =>
    rw [List.map_cons, List.mapM_cons, readId_dec _ (h n List.mem_cons_self), ih fun n hn => h n (List.mem_cons_of_mem _ hn)]
    rfl

theorem readRow_vertex (m : Maps) (id : Nat) (x : Vertex) (h : id < 2 ^ 32) :
    readRow m (vertexRow id x) = some { m with vertexes := assign id (vertexRow id x) m.vertexes
                                               headVertexes := if x.accepts then insert id m.headVertexes else m.headVertexes } := by
  have e : ∃ r, vertexRow id x = text "vertex" :: dec id :: asStringBool x.accepts :: r := ⟨_, rfl⟩
  obtain ⟨r, e⟩ := e
  rw [e]
  unfold readRow
  dsimp only
  rw [if_pos rfl, readId_dec _ h]
  simp only [asBool_asString]

theorem readRow_edge (m : Maps) (id : Nat) (cs : List Nat) (h : id < 2 ^ 32) (hc : ∀ n ∈ cs, n < 2 ^ 32) :
    readRow m (edgeRow id cs) = some { m with edges := assign id cs m.edges } := by
  unfold edgeRow readRow
  dsimp only
  rw [if_neg (by decide +kernel), readId_dec _ h, readIds_dec _ hc]

/-! ### `std::map` and `std::set` -/

theorem mem_assign {V : Type} (k : Nat) (x : V) (l : List (Nat × V)) (hs : l.Pairwise fun a b => a.1 < b.1) :
    (assign k x l).Pairwise (fun a b => a.1 < b.1) ∧ ∀ e, e ∈ assign k x l ↔ e = (k, x) ∨ (e ∈ l ∧ e.1 ≠ k) := by
  induction l with
  | nil => simp [assign]
  | cons y l ih =>
    obtain ⟨k', x'⟩ := y
    rw [List.pairwise_cons] at hs
    obtain ⟨h1, h2⟩ := hs
    obtain ⟨i1, i2⟩ := ih h2
    rw [assign]
    split
    · rename_i hlt
      refine ⟨?_, ?_⟩
      · rw [List.pairwise_cons]
        refine ⟨?_, List.pairwise_cons.2 ⟨h1, h2⟩⟩
        intro e he
        rcases List.mem_cons.1 he with rfl | he
        · exact hlt
        · have := h1 e he
          simp only at this
          simp only; omega
      · intro e
        constructor
        · intro he
          rcases List.mem_cons.1 he with rfl | he
          · exact Or.inl rfl
          · refine Or.inr ⟨he, ?_⟩
            rcases List.mem_cons.1 he with rfl | he
            · simp only; omega
            · have := h1 e he
              simp only at this; omega
        · rintro (rfl | ⟨he, _⟩)
          · exact List.mem_cons_self
          · exact List.mem_cons_of_mem _ he
    · split
      · rename_i hlt heq
        subst heq
        refine ⟨List.pairwise_cons.2 ⟨h1, h2⟩, ?_⟩
        intro e
        rw [List.mem_cons, List.mem_cons]
        constructor
        · rintro (rfl | he)
          · exact Or.inl rfl
          · have := h1 e he
            simp only at this
            exact Or.inr ⟨Or.inr he, by omega⟩
        · rintro (rfl | ⟨rfl | he, hne⟩)
          · exact Or.inl rfl
          · exact absurd rfl hne
          · exact Or.inr he
      · rename_i hlt heq
        refine ⟨?_, ?_⟩
        · rw [List.pairwise_cons]
          refine ⟨?_, i1⟩
          intro e he
          rcases (i2 e).1 he with rfl | ⟨he, _⟩
          · simp only; omega
          · exact h1 e he
        · intro e
          rw [List.mem_cons, i2, List.mem_cons]
          constructor
          · rintro (rfl | rfl | ⟨he, hne⟩)
            · exact Or.inr ⟨Or.inl rfl, by simp only; omega⟩
            · exact Or.inl rfl
            · exact Or.inr ⟨Or.inr he, hne⟩
          · rintro (rfl | ⟨rfl | he, hne⟩)
            · exact Or.inr (Or.inl rfl)
            · exact Or.inl rfl
            · exact Or.inr (Or.inr ⟨he, hne⟩)

theorem mem_insert (k : Nat) (l : List Nat) (hs : l.Pairwise (· < ·)) :
    (insert k l).Pairwise (· < ·) ∧ ∀ e, e ∈ insert k l ↔ e = k ∨ e ∈ l := by
  induction l with
  | nil => simp [insert]
  | cons y l ih =>
    rw [List.pairwise_cons] at hs
    obtain ⟨h1, h2⟩ := hs
    obtain ⟨i1, i2⟩ := ih h2
    rw [insert]
    split
    · rename_i hlt
      refine ⟨?_, by intro e; rw [List.mem_cons]⟩
      rw [List.pairwise_cons]
      refine ⟨?_, List.pairwise_cons.2 ⟨h1, h2⟩⟩
      intro e he
      rcases List.mem_cons.1 he with rfl | he
      · exact hlt
      · have := h1 e he; omega
    · split
      · rename_i hlt heq
        subst heq
        refine ⟨List.pairwise_cons.2 ⟨h1, h2⟩, ?_⟩
        intro e
        rw [List.mem_cons]
        tauto
      · rename_i hlt heq
        refine ⟨?_, ?_⟩
        · rw [List.pairwise_cons]
          refine ⟨?_, i1⟩
          intro e he
          rcases (i2 e).1 he with rfl | he
          · omega
          · exact h1 e he
        · intro e
          rw [List.mem_cons, i2, List.mem_cons]
          tauto

/-- A map is determined by its entries. -/
theorem map_ext {V : Type} (l l' : List (Nat × V)) (h : l.Pairwise fun a b => a.1 < b.1) (h' : l'.Pairwise fun a b => a.1 < b.1)
    (hm : ∀ e, e ∈ l ↔ e ∈ l') : l = l' := by
  induction l generalizing l' with
  | nil =>
    cases l' with
    | nil => rfl
    | cons e l' => exact absurd ((hm e).2 List.mem_cons_self) (by simp)
  | cons e l ih =>
    cases l' with
    | nil => exact absurd ((hm e).1 List.mem_cons_self) (by simp)
    | cons e' l' =>
      rw [List.pairwise_cons] at h h'
      have he : e = e' := by
        have h1 := (hm e).1 List.mem_cons_self
        have h2 := (hm e').2 List.mem_cons_self
        rcases List.mem_cons.1 h1 with h1 | h1
        · exact h1
        · rcases List.mem_cons.1 h2 with h2 | h2
          · exact h2.symm
          · have a := h.1 e' h2
            have b := h'.1 e h1
            omega
      subst he
      rw [ih l' h.2 h'.2 ?_]
      intro x
      have := hm x
      rw [List.mem_cons, List.mem_cons] at this
      constructor
      · intro hx
        rcases this.1 (Or.inr hx) with rfl | hx'
        · exact absurd (h.1 x hx) (by omega)
        · exact hx'
      · intro hx
        rcases this.2 (Or.inr hx) with rfl | hx'
        · exact absurd (h'.1 x hx) (by omega)
        · exact hx'

theorem set_ext (l l' : List Nat) (h : l.Pairwise (· < ·)) (h' : l'.Pairwise (· < ·)) (hm : ∀ e, e ∈ l ↔ e ∈ l') : l = l' := by
  have := map_ext (l.map fun n => (n, ())) (l'.map fun n => (n, ())) (by rw [List.pairwise_map]; exact h) (by rw [List.pairwise_map]; exact h')
    (by intro e; simp only [List.mem_map]; constructor <;> rintro ⟨a, ha, rfl⟩ <;> exact ⟨a, by simpa [hm] using ha, rfl⟩)
  have h2 := congrArg (List.map Prod.fst) this
  rw [List.map_map, List.map_map] at h2
  exact (List.map_id l).symm.trans (h2.trans (List.map_id l'))

theorem lookup_sorted {V : Type} (l : List (Nat × V)) (h : l.Pairwise fun a b => a.1 < b.1) (k : Nat) (x : V) : l.lookup k = some x ↔ (k, x) ∈ l := by
  induction l with
  | nil => simp
  | cons e l ih =>
    obtain ⟨k', x'⟩ := e
    rw [List.pairwise_cons] at h
    rw [List.lookup_cons, List.mem_cons]
    by_cases hk : k = k'
    · subst hk
      simp only [beq_self_eq_true, Option.some.injEq, Prod.mk.injEq, true_and]
      constructor
      · rintro rfl; exact Or.inl rfl
      · rintro (rfl | hx)
        · rfl
        · exact absurd (h.1 _ hx) (by simp)
    · have : (k == k') = false := by simpa using hk
      rw [this]
      simp only [ih h.2, Prod.mk.injEq, hk, false_and, false_or]

end Verif.Dsl
