import Verif.Model.TaskInputs
import Mathlib.Data.List.Induction
import Mathlib.Algebra.Field.Rat
import Mathlib.Algebra.Order.Ring.Rat

/-!
# C111: named inputs of a task

A statement that executes a task with inputs works on exactly one value for every column: the one that was written last under the name of the column, in upper
or lower case. It fails if a column has no value or one that cannot be encoded, and then says which columns have none and which names are no columns.
-/

namespace Verif.TaskInputs
open Verif.Lexer (asLower)
open Verif.Encoders (Out)

variable {V T : Type}

/-! ### Specification -/

/-- Two names that differ at most in upper and lower case. -/
def SameName (a b : List Char) : Prop := a.map Char.toLower = b.map Char.toLower

instance (a b : List Char) : Decidable (SameName a b) := inferInstanceAs (Decidable (_ = _))

/-- `v` is the value that was written last under a name. -/
def LastWritten (written : List (List Char × V)) (name : List Char) (v : V) : Prop :=
  ∃ l k r, written = l ++ (k, v) :: r ∧ SameName k name ∧ ∀ e ∈ r, ¬ SameName e.1 name

/-- No value was written under a name. -/
def NotWritten (written : List (List Char × V)) (name : List Char) : Prop := ∀ e ∈ written, ¬ SameName e.1 name

/-- A column gets this tensor. -/
def Gets (written : List (List Char × V)) (c : Column V T) (t : T) : Prop := ∃ v, LastWritten written c.name v ∧ c.encode v = .ok t

/-! ### The map -/

theorem toLower_toLower (c : Char) : c.toLower.toLower = c.toLower := by
  by_cases h : c.val ≥ 'A'.val ∧ c.val ≤ 'Z'.val
  · have hv : c.toLower.val = c.val + 32 := by unfold Char.toLower; rw [dif_pos h]; rfl
    have hn : ¬ (c.toLower.val ≥ 'A'.val ∧ c.toLower.val ≤ 'Z'.val) := by
      rw [hv]
      have h1 : (65 : UInt32) ≤ c.val := h.1
      have h2 : c.val ≤ (90 : UInt32) := h.2
      rw [UInt32.le_iff_toNat_le] at h1 h2
      rintro ⟨_, h3⟩
      have h3 : c.val + 32 ≤ (90 : UInt32) := h3
      rw [UInt32.le_iff_toNat_le, UInt32.toNat_add] at h3
      simp at h1 h2 h3
      omega
    generalize c.toLower = d at hn
    unfold Char.toLower
    rw [dif_neg hn]
  · have : c.toLower = c := by unfold Char.toLower; rw [dif_neg h]
    rw [this, this]

theorem find_assign (m : List (List Char × V)) (k k' : List Char) (v : V) :
    find (Parser.assign k v m) k' = if k = k' then some v else find m k' := by
  induction m with
  | nil =>
    unfold Parser.assign find
    rw [List.find?_cons]
    by_cases h : k = k'
    · simp [h]
    · simp [h]
  | cons p m ih =>
    unfold Parser.assign
    by_cases hp : p.1 = k
    · rw [if_pos hp]
      unfold find
      rw [List.find?_cons, List.find?_cons]
      by_cases h : k = k'
      · simp [h]
      · simp [h, hp]
    · rw [if_neg hp]
      unfold find at ih ⊢
      rw [List.find?_cons, List.find?_cons]
      by_cases h' : p.1 = k'
      · have : k ≠ k' := fun e => hp (h'.trans e.symm)
        simp [h', this]
      · simp only [h', decide_false]
        exact ih

theorem find_inputMap (written : List (List Char × V)) (name : List Char) (v : V) :
    (find (inputMap written) (asLower name) = some v ↔ LastWritten written name v) ∧ (find (inputMap written) (asLower name) = none ↔ NotWritten written name) := by
  induction written using List.reverseRecOn generalizing v with
  | nil =>
    refine ⟨⟨fun h => (by cases h), ?_⟩, ⟨fun _ e he => (by cases he), fun _ => rfl⟩⟩
    rintro ⟨l, k, r, h, _⟩
    simp at h
  | append_singleton w e ih =>
    have hm : inputMap (w ++ [e]) = Parser.assign (asLower e.1) e.2 (inputMap w) := by unfold inputMap; rw [List.foldl_append]; rfl
    rw [hm, find_assign]
    by_cases hn : asLower e.1 = asLower name
    · rw [if_pos hn]
      refine ⟨⟨?_, ?_⟩, ⟨fun h => (by cases h), fun h => ?_⟩⟩
      · intro h
        refine ⟨w, e.1, [], ?_, hn, by simp⟩
        rw [← Option.some.inj h]
      · rintro ⟨l, k, r, h, hk, hr⟩
        rcases List.eq_nil_or_concat r with rfl | ⟨r', b, rfl⟩
        · rw [show l ++ [(k, v)] = l ++ [(k, v)] from rfl] at h
          have := List.append_inj' h rfl
          rw [(List.cons.inj this.2).1]
        · rw [List.concat_eq_append, ← List.cons_append, ← List.append_assoc] at h
          have := (List.cons.inj (List.append_inj' h rfl).2).1
          exact absurd hn (hr e (by rw [this, List.concat_eq_append]; simp))
      · exact absurd hn (h e (by simp))
    · rw [if_neg hn]
      refine ⟨(ih v).1.trans ⟨?_, ?_⟩, (ih v).2.trans ⟨?_, ?_⟩⟩
      · rintro ⟨l, k, r, h, hk, hr⟩
        refine ⟨l, k, r ++ [e], by rw [h]; simp, hk, ?_⟩
        intro x hx
        rw [List.mem_append, List.mem_singleton] at hx
        rcases hx with hx | rfl
        · exact hr x hx
        · exact hn
      · rintro ⟨l, k, r, h, hk, hr⟩
        rcases List.eq_nil_or_concat r with rfl | ⟨r', b, rfl⟩
        · have := (List.cons.inj (List.append_inj' h rfl).2).1
          rw [this] at hn
          exact absurd hk hn
        · rw [List.concat_eq_append, ← List.cons_append, ← List.append_assoc] at h
          refine ⟨l, k, r', (List.append_inj' h rfl).1, hk, ?_⟩
          intro x hx
          exact hr x (by rw [List.concat_eq_append]; exact List.mem_append_left _ hx)
      · intro h x hx
        rw [List.mem_append, List.mem_singleton] at hx
        rcases hx with hx | rfl
        · exact h x hx
        · exact hn
      · intro h x hx
        exact h x (List.mem_append_left _ hx)

theorem lastWritten_unique (written : List (List Char × V)) (name : List Char) (v v' : V) (h : LastWritten written name v) (h' : LastWritten written name v') :
    v = v' := by
  have a := (find_inputMap written name v).1.2 h
  rw [(find_inputMap written name v').1.2 h'] at a
  exact (Option.some.inj a).symm

/-- What `build_given` delivers: all tensors, or fewer. -/
theorem buildGiven_spec (written : List (List Char × V)) (cols : List (Column V T)) (hu : ∀ c ∈ cols, ∀ v, LastWritten written c.name v → c.encode v ≠ .undefined) :
    ∃ ts, buildGiven (inputMap written) cols = .ok ts ∧ ts.length ≤ cols.length ∧ List.Forall₂ (Gets written) (cols.take ts.length) ts ∧
      (ts.length = cols.length ∨ ∃ c ∈ cols, ∀ t, ¬ Gets written c t) := by
  induction cols with
  | nil => exact ⟨[], rfl, le_rfl, .nil, Or.inl rfl⟩
  | cons c cs ih =>
    obtain ⟨ts, h1, h2, h3, h4⟩ := ih fun c hc => hu c (List.mem_cons_of_mem _ hc)
    unfold buildGiven
    cases hf : find (inputMap written) (asLower c.name) with
    | none =>
      refine ⟨[], rfl, Nat.zero_le _, .nil, Or.inr ⟨c, List.mem_cons_self, ?_⟩⟩
      rintro t ⟨v, ⟨l, k, r, hw, hk, _⟩, _⟩
      exact (find_inputMap written c.name v).2.1 hf (k, v) (by rw [hw]; simp) hk
    | some v =>
      have hv := (find_inputMap written c.name v).1.1 hf
      simp only
      cases he : c.encode v with
      | undefined => exact absurd he (hu c List.mem_cons_self v hv)
      | throws =>
        refine ⟨[], rfl, Nat.zero_le _, .nil, Or.inr ⟨c, List.mem_cons_self, ?_⟩⟩
        rintro t ⟨v', hv', ht⟩
        rw [lastWritten_unique _ _ _ _ hv' hv, he] at ht
        cases ht
      | ok t =>
        refine ⟨t :: ts, by simp only [h1]; rfl, Nat.succ_le_succ h2, ?_, ?_⟩
        · rw [List.length_cons, List.take_succ_cons]
          exact .cons ⟨v, hv, he⟩ h3
        · rcases h4 with h4 | ⟨c', hc', h⟩
          · left; rw [List.length_cons, List.length_cons, h4]
          · exact Or.inr ⟨c', List.mem_cons_of_mem _ hc', h⟩

/-- C111: the network gets these tensors if and only if they are what the columns get, in the order of the columns. Missing: values with too few elements
(`C111_short_violated`). -/
theorem C111_partial (written : List (List Char × V)) (cols : List (Column V T)) (hu : ∀ c ∈ cols, ∀ v, LastWritten written c.name v → c.encode v ≠ .undefined)
    (ts : List T) : execute cols (inputMap written) = .predict ts ↔ List.Forall₂ (Gets written) cols ts := by
  obtain ⟨us, h1, h2, h3, h4⟩ := buildGiven_spec written cols hu
  have huniq : ∀ {cols : List (Column V T)} {ts us : List T}, List.Forall₂ (Gets written) cols ts → List.Forall₂ (Gets written) cols us → ts = us := by
    intro cols ts us h
    induction h generalizing us with
    | nil => intro h; cases h; rfl
    | cons a _ ih =>
      intro h
      cases h with
      | cons b hb =>
        obtain ⟨v, hv, ht⟩ := a
        obtain ⟨v', hv', ht'⟩ := b
        rw [lastWritten_unique _ _ _ _ hv' hv, ht] at ht'
        cases ht'
        rw [ih hb]
  unfold execute
  rw [h1]
  simp only
  by_cases hl : us.length = cols.length
  · rw [if_neg (by simpa using hl)]
    rw [hl, List.take_length] at h3
    refine ⟨?_, ?_⟩
    · intro h
      cases h
      exact h3
    · intro h
      rw [huniq h h3]
  · rw [if_pos hl]
    refine ⟨fun h => (by cases h), fun h => ?_⟩
    rcases h4 with h4 | ⟨c, hc, hno⟩
    · exact absurd h4 hl
    · obtain ⟨i, hi, rfl⟩ := List.getElem_of_mem hc
      have := (List.forall₂_iff_get.1 h).2 i hi (by rw [← h.length_eq]; exact hi)
      exact absurd this (hno _)

theorem keys_inputMap (written : List (List Char × V)) (i : List Char) : (∃ e ∈ inputMap written, e.1 = i) ↔ ∃ e ∈ written, asLower e.1 = i := by
  have hassign : ∀ (m : List (List Char × V)) k v i, (∃ e ∈ Parser.assign k v m, e.1 = i) ↔ k = i ∨ ∃ e ∈ m, e.1 = i := by
    intro m k v i
    induction m with
    | nil => simp [Parser.assign]
    | cons p m ih =>
      unfold Parser.assign
      split
      · rename_i hp
        simp only [List.mem_cons, exists_eq_or_imp]
        rw [hp]
        tauto
      · simp only [List.mem_cons, exists_eq_or_imp]
        rw [ih]
        tauto
  induction written using List.reverseRecOn with
  | nil => simp [inputMap]
  | append_singleton w e ih =>
    have hm : inputMap (w ++ [e]) = Parser.assign (asLower e.1) e.2 (inputMap w) := by unfold inputMap; rw [List.foldl_append]; rfl
    rw [hm]
    refine (hassign _ _ _ _).trans ((or_congr Iff.rfl ih).trans ?_)
    simp only [List.mem_append, List.mem_singleton]
    constructor
    · rintro (h | ⟨x, hx, h⟩)
      · exact ⟨e, Or.inr rfl, h⟩
      · exact ⟨x, Or.inl hx, h⟩
    · rintro ⟨x, hx | rfl, h⟩
      · exact Or.inr ⟨x, hx, h⟩
      · exact Or.inl h

/-- C111: if some column gets nothing, the statement fails and reports exactly the columns for which nothing was written and the names, in lower case, that
are no columns. -/
theorem C111_fails (written : List (List Char × V)) (cols : List (Column V T)) (hu : ∀ c ∈ cols, ∀ v, LastWritten written c.name v → c.encode v ≠ .undefined)
    (hno : ∃ c ∈ cols, ∀ t, ¬ Gets written c t) :
    ∃ ms is, execute cols (inputMap written) = .fail ms is ∧ (∀ m, m ∈ ms ↔ ∃ c ∈ cols, c.name = m ∧ NotWritten written m) ∧
      ∀ i, i ∈ is ↔ ∃ e ∈ written, asLower e.1 = i ∧ ∀ c ∈ cols, ¬ SameName c.name e.1 := by
  obtain ⟨us, h1, h2, h3, h4⟩ := buildGiven_spec written cols hu
  refine ⟨missing cols (inputMap written), invalid cols (inputMap written), ?_, ?_, ?_⟩
  · unfold execute
    rw [h1]
    simp only
    rw [if_pos]
    intro hl
    obtain ⟨c, hc, hno⟩ := hno
    obtain ⟨i, hi, rfl⟩ := List.getElem_of_mem hc
    rw [hl, List.take_length] at h3
    exact hno _ ((List.forall₂_iff_get.1 h3).2 i hi (by omega))
  · intro m
    unfold missing
    simp only [List.mem_map, List.mem_filter, Option.isNone_iff_eq_none]
    constructor
    · rintro ⟨c, ⟨hc, hf⟩, rfl⟩
      refine ⟨c, hc, rfl, ?_⟩
      intro e he
      exact (find_inputMap written c.name e.2).2.1 hf e he
    · rintro ⟨c, hc, rfl, hw⟩
      refine ⟨c, ⟨hc, ?_⟩, rfl⟩
      cases hfi : find (inputMap written) (asLower c.name) with
      | none => rfl
      | some v =>
        rw [(find_inputMap written c.name v).2.2 hw] at hfi
        cases hfi
  · have hlow : ∀ l : List Char, asLower (asLower l) = asLower l := by
      intro l
      unfold asLower
      rw [List.map_map]
      apply List.map_congr_left
      intro c _
      exact toLower_toLower c
    have hkeys := keys_inputMap written
    intro i
    unfold invalid
    simp only [List.mem_map, List.mem_filter, decide_eq_true_eq, not_exists, not_and]
    constructor
    · rintro ⟨e, ⟨he, hn⟩, rfl⟩
      obtain ⟨x, hx, hxe⟩ := (hkeys e.1).1 ⟨e, he, rfl⟩
      refine ⟨x, hx, hxe, ?_⟩
      intro c hc hs
      apply hn c hc
      rw [← hxe, hlow]
      exact hs
    · rintro ⟨x, hx, rfl, hn⟩
      obtain ⟨e, he, hex⟩ := (hkeys (asLower x.1)).2 ⟨x, hx, rfl⟩
      refine ⟨e, ⟨he, ?_⟩, hex⟩
      intro c hc hs
      rw [hex, hlow] at hs
      exact hn c hc hs

/-- C111 fails for values with too few elements: a column of two numbers for which one is written is undefined behaviour, not a failure. -/
theorem C111_short_violated {V : Type} (asFloat : V → Option ℚ) (toText : V → Verif.TextCodec.Str) (v : V) (x : ℚ) (hx : asFloat v = some x) (name : List Char) :
    execute [⟨name, Encoders.variantEncode asFloat toText id ⟨'N', 1, 2, 1, [], ⟨false, 0, 1, false, 0, 1⟩⟩⟩] (inputMap [(name, [v])]) = .undefined := by
  have hf : find (inputMap [(name, [v])]) (asLower name) = some [v] := by
    unfold inputMap find Parser.assign
    simp
  unfold execute buildGiven
  rw [hf]
  simp [Encoders.variantEncode, Encoders.encodeValues, Encoders.readValues, hx, Encoders.Out.map]

/-- C111 fails for tables with columns whose names differ only in case: whatever is written, both get the same value. -/
theorem C111_case_violated (written : List (List Char × V)) (c d : Column V T) (hn : SameName c.name d.name) (v w : V) (hv : LastWritten written c.name v)
    (hw : LastWritten written d.name w) : v = w := by
  obtain ⟨l, k, r, h1, h2, h3⟩ := hw
  refine lastWritten_unique written c.name v w hv ⟨l, k, r, h1, ?_, ?_⟩
  · unfold SameName at *; rw [h2, hn]
  · intro e he hs
    apply h3 e he
    unfold SameName at *
    rw [hs, hn]

/-- A statement that names its columns in another order and in other cases, and one of them twice; and one that misses a column and names one that does not
exist. -/
example : ∃ ts, execute (T := Nat) [⟨"Width".toList, fun v => .ok v⟩, ⟨"height".toList, fun v => .ok (10 * v)⟩]
    (inputMap [("HEIGHT".toList, 1), ("width".toList, 2), ("Height".toList, 3)]) = .predict ts ∧ ts = [2, 30] := ⟨_, rfl, rfl⟩

example : execute (T := Nat) [⟨"Width".toList, fun v => .ok v⟩, ⟨"height".toList, fun v => .ok (10 * v)⟩] (inputMap [("HEIGHT".toList, 1), ("Depth".toList, 2)]) =
    .fail ["Width".toList] ["depth".toList] := rfl

end Verif.TaskInputs
