import Verif.Model.FileSorter

/-!
C17: external sort. For every input, chunk size, tie-breaking of the heap, with or without header and duplicate removal: the sort has an execution
(`C17_total`), and every execution writes the non-empty lines of the body in order, none lost or invented (`C17_sorted`), or with duplicate removal each distinct line
exactly once in strictly increasing order (`C17_distinct`); the header stays first (`C17_header`). The result therefore does not depend on the chunk size
(`C17_chunk_independent`).
-/
namespace Verif.FileSorter

variable {L : Type} [LinearOrder L]

theorem sortChunk_perm (l : List L) : (sortChunk l).Perm l := List.perm_insertionSort _ _
theorem sortChunk_sorted (l : List L) : (sortChunk l).Pairwise (· ≤ ·) := List.pairwise_insertionSort _ _

theorem read_inv (isEmpty : L → Bool) (n : Nat) (input : List L) (st : List L × List (List L)) (hs : ∀ c ∈ st.2, c.Pairwise (· ≤ ·)) :
    ((input.foldl (readStep isEmpty n) st).2.flatten ++ (input.foldl (readStep isEmpty n) st).1).Perm
      (st.2.flatten ++ st.1 ++ input.filter (fun l => !isEmpty l)) ∧
    ∀ c ∈ (input.foldl (readStep isEmpty n) st).2, c.Pairwise (· ≤ ·) := by
  induction input generalizing st with
  | nil => simpa using hs
  | cons x xs ih =>
    rw [List.foldl_cons]
    have key : ((readStep isEmpty n st x).2.flatten ++ (readStep isEmpty n st x).1).Perm (st.2.flatten ++ st.1 ++ [x].filter (fun l => !isEmpty l)) ∧
        ∀ c ∈ (readStep isEmpty n st x).2, c.Pairwise (· ≤ ·) := by
      unfold readStep
      have e : (if isEmpty x = true then st.1 else st.1 ++ [x]) = st.1 ++ [x].filter (fun l => !isEmpty l) := by
        cases h : isEmpty x <;> simp [h]
      simp only [e]
      split
      · refine ⟨?_, ?_⟩
        · simp only [List.flatten_append, List.flatten_cons, List.flatten_nil, List.append_nil, List.append_assoc]
          exact (sortChunk_perm _).append_left _
        · intro c hc
          simp only [List.mem_append, List.mem_singleton] at hc
          rcases hc with hc | rfl
          · exact hs c hc
          · exact sortChunk_sorted _
      · exact ⟨by simp, hs⟩
    obtain ⟨h1, h2⟩ := ih _ key.2
    refine ⟨h1.trans ?_, h2⟩
    have : (x :: xs).filter (fun l => !isEmpty l) = [x].filter (fun l => !isEmpty l) ++ xs.filter (fun l => !isEmpty l) := by
      rw [← List.filter_append]; rfl
    rw [this, ← List.append_assoc]
    exact key.1.append_right _

/-- The chunks are sorted and together hold exactly the non-empty input lines. -/
theorem chunks_spec (isEmpty : L → Bool) (n : Nat) (input : List L) :
    (chunks isEmpty n input).flatten.Perm (input.filter (fun l => !isEmpty l)) ∧ ∀ c ∈ chunks isEmpty n input, c.Pairwise (· ≤ ·) := by
  obtain ⟨h1, h2⟩ := read_inv isEmpty n input ([], []) (by simp)
  unfold chunks
  simp only [List.flatten_nil, List.nil_append] at h1
  dsimp only
  split
  · rename_i he
    rw [he, List.append_nil] at h1
    exact ⟨h1, h2⟩
  · refine ⟨?_, ?_⟩
    · simp only [List.flatten_append, List.flatten_cons, List.flatten_nil, List.append_nil]
      exact ((sortChunk_perm _).append_left _).trans h1
    · intro c hc
      simp only [List.mem_append, List.mem_singleton] at hc
      rcases hc with hc | rfl
      · exact h2 c hc
      · exact sortChunk_sorted _

theorem flatten_filter (cs : List (List L)) : (cs.filter (· ≠ [])).flatten = cs.flatten := by
  induction cs with
  | nil => rfl
  | cons c cs ih =>
    by_cases h : c = []
    · subst h; simp at ih ⊢; exact ih
    · rw [List.filter_cons_of_pos (by simpa using h), List.flatten_cons, ih, List.flatten_cons]

/-- A heap: open chunks are sorted and not exhausted. -/
def Heap (h : List (List L)) : Prop := ∀ c ∈ h, c ≠ [] ∧ c.Pairwise (· ≤ ·)

theorem min_of_heads {cs : List (List L)} (hh : Heap cs) {x : L} (h : ∀ c ∈ cs, ∀ y ∈ c.head?, x ≤ y) : ∀ y ∈ cs.flatten, x ≤ y := by
  intro y hy
  obtain ⟨c, hc, hyc⟩ := List.mem_flatten.mp hy
  obtain ⟨hne, hs⟩ := hh c hc
  obtain ⟨z, zs, rfl⟩ := List.exists_cons_of_ne_nil hne
  have h1 := h _ hc z rfl
  rw [List.mem_cons] at hyc
  rcases hyc with rfl | hyc
  · exact h1
  · exact le_trans h1 ((List.pairwise_cons.mp hs).1 y hyc)

theorem pop_spec {h h' : List (List L)} {x : L} (hp : Pop h x h') (hh : Heap h) :
    h.flatten.Perm (x :: h'.flatten) ∧ Heap h' ∧ ∀ y ∈ h'.flatten, x ≤ y := by
  cases hp with
  | last a b x hm =>
    have hab : Heap (a ++ b) := fun c hc => hh c (by simp only [List.mem_append, List.mem_cons] at hc ⊢; tauto)
    refine ⟨?_, hab, min_of_heads hab hm⟩
    simp only [List.flatten_append, List.flatten_cons, List.singleton_append]
    exact List.perm_middle
  | more a b x z rest hm =>
    have hab : Heap (a ++ b) := fun c hc => hh c (by simp only [List.mem_append, List.mem_cons] at hc ⊢; tauto)
    obtain ⟨_, hs⟩ := hh (x :: z :: rest) (by simp)
    have hs' := List.pairwise_cons.mp hs
    refine ⟨?_, ?_, ?_⟩
    · simp only [List.flatten_append, List.flatten_cons, List.cons_append]
      exact List.perm_middle
    · intro c hc
      simp only [List.mem_append, List.mem_cons] at hc
      rcases hc with hc | rfl | hc
      · exact hab c (by simp [hc])
      · exact ⟨by simp, hs'.2⟩
      · exact hab c (by simp [hc])
    · intro y hy
      simp only [List.flatten_append, List.flatten_cons, List.mem_append] at hy
      rcases hy with hy | hy | hy
      · exact min_of_heads hab hm y (by simp only [List.flatten_append, List.mem_append]; exact Or.inl hy)
      · exact hs'.1 y hy
      · exact min_of_heads hab hm y (by simp only [List.flatten_append, List.mem_append]; exact Or.inr hy)

theorem exists_min_head (h : List (List L)) (hh : Heap h) (hne : h ≠ []) : ∃ x h', Pop h x h' := by
  have : ∃ a c b, h = a ++ c :: b ∧ ∃ x, c.head? = some x ∧ ∀ d ∈ h, ∀ y ∈ d.head?, x ≤ y := by
    induction h with
    | nil => exact absurd rfl hne
    | cons c cs ih =>
      obtain ⟨z, zs, rfl⟩ := List.exists_cons_of_ne_nil (hh c List.mem_cons_self).1
      by_cases hcs : cs = []
      · subst hcs
        exact ⟨[], z :: zs, [], rfl, z, rfl, by simp⟩
      · obtain ⟨a, c', b, he, x, hx, hm⟩ := ih (fun c hc => hh c (List.mem_cons_of_mem _ hc)) hcs
        by_cases hle : z ≤ x
        · refine ⟨[], z :: zs, cs, rfl, z, rfl, ?_⟩
          intro d hd y hy
          rw [List.mem_cons] at hd
          rcases hd with rfl | hd
          · simp only [List.head?_cons, Option.mem_def, Option.some.injEq] at hy; exact hy ▸ le_refl _
          · exact le_trans hle (hm d hd y hy)
        · refine ⟨(z :: zs) :: a, c', b, by simp [he], x, hx, ?_⟩
          intro d hd y hy
          rw [List.mem_cons] at hd
          rcases hd with rfl | hd
          · simp only [List.head?_cons, Option.mem_def, Option.some.injEq] at hy; exact hy ▸ le_of_lt (not_le.mp hle)
          · exact hm d hd y hy
  obtain ⟨a, c, b, rfl, x, hx, hm⟩ := this
  have hm' : ∀ d ∈ a ++ b, ∀ y ∈ d.head?, x ≤ y := fun d hd => hm d (by simp only [List.mem_append, List.mem_cons] at hd ⊢; tauto)
  match c, hx with
  | [_], hx => simp at hx; subst hx; exact ⟨_, _, Pop.last a b _ hm'⟩
  | _ :: z :: rest, hx => simp at hx; subst hx; exact ⟨_, _, Pop.more a b _ z rest hm'⟩

theorem merge_total (isEmpty : L → Bool) (dd : Bool) (n : Nat) : ∀ (h : List (List L)) (prev : Option L), Heap h → h.flatten.length ≤ n →
    ∃ out, Merge isEmpty dd h prev out := by
  induction n with
  | zero =>
    intro h prev hh hn
    by_cases hne : h = []
    · subst hne; exact ⟨[], .done prev⟩
    · obtain ⟨x, h', hp⟩ := exists_min_head h hh hne
      have := (pop_spec hp hh).1.length_eq
      rw [List.length_cons] at this; omega
  | succ n ih =>
    intro h prev hh hn
    by_cases hne : h = []
    · subst hne; exact ⟨[], .done prev⟩
    · obtain ⟨x, h', hp⟩ := exists_min_head h hh hne
      obtain ⟨h1, h2, _⟩ := pop_spec hp hh
      have hl := h1.length_eq
      rw [List.length_cons] at hl
      cases hw : writes isEmpty dd prev x with
      | true =>
        obtain ⟨out, ho⟩ := ih h' (some x) h2 (by omega)
        exact ⟨x :: out, .emit hp hw ho⟩
      | false =>
        obtain ⟨out, ho⟩ := ih h' prev h2 (by omega)
        exact ⟨out, .skip hp hw ho⟩

theorem merge_sorted {isEmpty : L → Bool} {h : List (List L)} {prev : Option L} {out : List L} (hm : Merge isEmpty false h prev out)
    (hh : Heap h) (he : ∀ x ∈ h.flatten, isEmpty x = false) : out.Perm h.flatten ∧ out.Pairwise (· ≤ ·) := by
  induction hm with
  | done => simp
  | @emit h x h' prev out hp hw hm ih =>
    obtain ⟨h1, h2, h3⟩ := pop_spec hp hh
    obtain ⟨i1, i2⟩ := ih h2 (fun y hy => he y (h1.mem_iff.mpr (List.mem_cons_of_mem _ hy)))
    exact ⟨(i1.cons x).trans h1.symm, List.pairwise_cons.mpr ⟨fun y hy => h3 y (i1.mem_iff.mp hy), i2⟩⟩
  | @skip h x h' prev out hp hw hm ih =>
    obtain ⟨h1, _, _⟩ := pop_spec hp hh
    have := he x (h1.mem_iff.mpr List.mem_cons_self)
    simp [writes, this] at hw

theorem merge_distinct {isEmpty : L → Bool} {h : List (List L)} {prev : Option L} {out : List L} (hm : Merge isEmpty true h prev out)
    (hh : Heap h) (he : ∀ x ∈ h.flatten, isEmpty x = false) (hp : ∀ p ∈ prev, ∀ x ∈ h.flatten, p ≤ x) :
    (∀ x, x ∈ out ↔ x ∈ h.flatten ∧ prev ≠ some x) ∧ out.Pairwise (· < ·) ∧ ∀ p ∈ prev, ∀ x ∈ out, p < x := by
  induction hm with
  | done => simp
  | @emit h x h' prev out hpop hw hm ih =>
    obtain ⟨h1, h2, h3⟩ := pop_spec hpop hh
    have hx : x ∈ h.flatten := h1.mem_iff.mpr List.mem_cons_self
    have hne : prev ≠ some x := by
      rintro rfl
      simp [writes] at hw
    obtain ⟨i1, i2, i3⟩ := ih h2 (fun y hy => he y (h1.mem_iff.mpr (List.mem_cons_of_mem _ hy)))
      (fun p hp y hy => by simp only [Option.mem_def, Option.some.injEq] at hp; exact hp ▸ h3 y hy)
    have i3' := i3 x rfl
    have hlt : ∀ p ∈ prev, p < x := fun p hpp => lt_of_le_of_ne (hp p hpp x hx) (by rintro rfl; exact hne hpp)
    refine ⟨?_, List.pairwise_cons.mpr ⟨i3', i2⟩, ?_⟩
    · intro y
      rw [List.mem_cons, i1, h1.mem_iff, List.mem_cons]
      constructor
      · rintro (rfl | ⟨hy, hxy⟩)
        · exact ⟨Or.inl rfl, hne⟩
        · refine ⟨Or.inr hy, ?_⟩
          rintro rfl
          have a := hlt y rfl
          exact absurd (h3 y hy) (not_le.mpr a)
      · rintro ⟨rfl | hy, hpy⟩
        · exact Or.inl rfl
        · by_cases e : x = y
          · exact Or.inl e.symm
          · exact Or.inr ⟨hy, by simpa using e⟩
    · intro p hpp y hy
      rw [List.mem_cons] at hy
      rcases hy with rfl | hy
      · exact hlt p hpp
      · exact lt_trans (hlt p hpp) (i3' y hy)
  | @skip h x h' prev out hpop hw hm ih =>
    obtain ⟨h1, h2, h3⟩ := pop_spec hpop hh
    have hx : x ∈ h.flatten := h1.mem_iff.mpr List.mem_cons_self
    have hex := he x hx
    have hpx : prev = some x := by
      cases prev with
      | none => simp [writes] at hw
      | some p => simpa [writes, hex] using hw
    subst hpx
    obtain ⟨i1, i2, i3⟩ := ih h2 (fun y hy => he y (h1.mem_iff.mpr (List.mem_cons_of_mem _ hy)))
      (fun p hp y hy => by simp only [Option.mem_def, Option.some.injEq] at hp; exact hp ▸ h3 y hy)
    refine ⟨?_, i2, i3⟩
    intro y
    rw [i1, h1.mem_iff, List.mem_cons]
    constructor
    · rintro ⟨a, b⟩; exact ⟨Or.inr a, b⟩
    · rintro ⟨rfl | a, b⟩
      · exact absurd rfl b
      · exact ⟨a, b⟩

theorem heap_chunks (isEmpty : L → Bool) (n : Nat) (input : List L) : Heap ((chunks isEmpty n input).filter (· ≠ [])) := by
  intro c hc
  rw [List.mem_filter] at hc
  exact ⟨by simpa using hc.2, (chunks_spec isEmpty n input).2 c hc.1⟩

theorem chunks_flat (isEmpty : L → Bool) (n : Nat) (input : List L) :
    ((chunks isEmpty n input).filter (· ≠ [])).flatten.Perm (input.filter (fun l => !isEmpty l)) := by
  rw [flatten_filter]; exact (chunks_spec isEmpty n input).1

theorem chunks_nonempty (isEmpty : L → Bool) (n : Nat) (input : List L) :
    ∀ x ∈ ((chunks isEmpty n input).filter (· ≠ [])).flatten, isEmpty x = false := by
  intro x hx
  have := (chunks_flat isEmpty n input).mem_iff.mp hx
  rw [List.mem_filter] at this
  simpa using this.2

/-- Specification: the lines to be sorted. -/
def bodyLines (isEmpty : L → Bool) (hasHeader : Bool) (input : List L) : List L :=
  (if hasHeader then input.drop 1 else input).filter (fun l => !isEmpty l)

/-- The sort always finishes: every input has a result. -/
theorem C17_total (isEmpty : L → Bool) (e : L) (hasHeader : Bool) (n : Nat) (dd : Bool) (input : List L) :
    ∃ output, Sorts isEmpty e hasHeader n dd input output := by
  obtain ⟨out, ho⟩ := merge_total isEmpty dd _ _ none (heap_chunks isEmpty n (if hasHeader then input.drop 1 else input)) (le_refl _)
  exact ⟨_, out, ho, rfl⟩

/-- The header stays first. -/
theorem C17_header (isEmpty : L → Bool) (e : L) (n : Nat) (dd : Bool) (header : L) (input output : List L)
    (h : Sorts isEmpty e true n dd (header :: input) output) : output.head? = some header := by
  obtain ⟨body, _, rfl⟩ := h
  rfl

/-- Without duplicate removal: the body of the result is a sorted permutation of the non-empty body lines. -/
theorem C17_sorted (isEmpty : L → Bool) (e : L) (hasHeader : Bool) (n : Nat) (input output : List L)
    (h : Sorts isEmpty e hasHeader n false input output) :
    ∃ body, output = (if hasHeader then [input.head?.getD e] else []) ++ body ∧
      body.Perm (bodyLines isEmpty hasHeader input) ∧ body.Pairwise (· ≤ ·) := by
  obtain ⟨body, hm, rfl⟩ := h
  obtain ⟨h1, h2⟩ := merge_sorted hm (heap_chunks _ _ _) (chunks_nonempty _ _ _)
  exact ⟨body, rfl, h1.trans (chunks_flat _ _ _), h2⟩

/-- With duplicate removal: the body of the result has each distinct non-empty body line exactly once, in strictly increasing order. -/
theorem C17_distinct (isEmpty : L → Bool) (e : L) (hasHeader : Bool) (n : Nat) (input output : List L)
    (h : Sorts isEmpty e hasHeader n true input output) :
    ∃ body, output = (if hasHeader then [input.head?.getD e] else []) ++ body ∧
      (∀ x, x ∈ body ↔ x ∈ bodyLines isEmpty hasHeader input) ∧ body.Pairwise (· < ·) := by
  obtain ⟨body, hm, rfl⟩ := h
  obtain ⟨h1, h2, _⟩ := merge_distinct hm (heap_chunks _ _ _) (chunks_nonempty _ _ _) (by simp)
  refine ⟨body, rfl, ?_, h2⟩
  intro x
  rw [h1, (chunks_flat _ _ _).mem_iff]
  simp [bodyLines]

/-- The result does not depend on the chunk size or on how the heap breaks ties. -/
theorem C17_chunk_independent (isEmpty : L → Bool) (e : L) (hasHeader : Bool) (n m : Nat) (dd : Bool) (input o₁ o₂ : List L)
    (h₁ : Sorts isEmpty e hasHeader n dd input o₁) (h₂ : Sorts isEmpty e hasHeader m dd input o₂) : o₁ = o₂ := by
  cases dd with
  | false =>
    obtain ⟨b₁, rfl, p₁, s₁⟩ := C17_sorted _ _ _ _ _ _ h₁
    obtain ⟨b₂, rfl, p₂, s₂⟩ := C17_sorted _ _ _ _ _ _ h₂
    rw [(p₁.trans p₂.symm).eq_of_pairwise (fun a b _ _ h1 h2 => le_antisymm h1 h2) s₁ s₂]
  | true =>
    obtain ⟨b₁, rfl, p₁, s₁⟩ := C17_distinct _ _ _ _ _ _ h₁
    obtain ⟨b₂, rfl, p₂, s₂⟩ := C17_distinct _ _ _ _ _ _ h₂
    have nd : ∀ b : List L, b.Pairwise (· < ·) → b.Nodup := fun b h => h.imp (fun h => ne_of_lt h)
    have hp : b₁.Perm b₂ := (List.perm_ext_iff_of_nodup (nd _ s₁) (nd _ s₂)).mpr (fun x => by rw [p₁, p₂])
    rw [hp.eq_of_pairwise (fun a b _ _ h1 h2 => absurd h1 (lt_asymm h2)) s₁ s₂]

-- A concrete run: header 9, lines 3 1 (empty = 0) 3 2, chunk size 2.
example : chunks (fun l : Nat => l == 0) 2 [3, 1, 0, 3, 2] = [[1, 3], [2, 3]] := by decide
example : Pop [[1, 3], [2, 3]] 1 [[3], [2, 3]] := Pop.more [] [[2, 3]] 1 3 [] (by simp)
example : Sorts (fun l : Nat => l == 0) 0 true 2 true [9, 3, 1, 0, 3, 2] [9, 1, 2, 3] :=
  ⟨[1, 2, 3], .emit (Pop.more [] [[2, 3]] 1 3 [] (by simp)) rfl
    (.emit (Pop.more [[3]] [] 2 3 [] (by simp)) rfl
      (.emit (Pop.last [] [[3]] 3 (by simp)) rfl (.skip (Pop.last [] [] 3 (by simp)) rfl (.done _)))), rfl⟩

end Verif.FileSorter
