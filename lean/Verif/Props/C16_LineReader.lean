import Verif.Model.LineReader

/-!
C16: reading a directory of text files line by line.

The reader never invents, repeats or reorders a line (`C16_prefix`) and returns every line of every file when each file can be opened and has at least one line
left after its header (`C16_all_partial`). It stops at the first file, other than the very first one, that is empty or unreadable, losing all later files
(`C16_empty_file_violated`, `C16_header_only_violated`, `C16_unreadable_violated`).
-/
namespace Verif.LineReader

variable {L : Type}

/-- Specification: the lines a file contributes. -/
def body (skip : Bool) : Option (List L) → List L
  | none => []
  | some ls => if skip then ls.drop 1 else ls

/-- Specification: the lines of all files in order. -/
def allLines (skip : Bool) (files : List (Option (List L))) : List L := files.flatMap (body skip)

/-- A file that can be opened and has a line left after its header. -/
def Useful (skip : Bool) (f : Option (List L)) : Prop := body skip f ≠ []

/-- What an open reader still has to deliver. -/
def pending (r : Reader L) : List L :=
  if r.hasNext then r.nextLine :: (r.cur.getD [] ++ allLines r.skip r.later) else []

theorem openNext_some {skip : Bool} {f : Option (List L)} {l : L} {c : Option (List L)} (h : openNext skip f = (some l, c)) :
    ∃ rest, c = some rest ∧ body skip f = l :: rest := by
  cases f with
  | none => simp [openNext] at h
  | some ls =>
    simp only [openNext] at h
    simp only [body]
    split at h
    · simp at h
    · rename_i l' rest hx
      simp only [Prod.mk.injEq, Option.some.injEq] at h
      exact ⟨rest, h.2.symm, by rw [hx, h.1]⟩

theorem openNext_none {skip : Bool} {f : Option (List L)} {c : Option (List L)} (h : openNext skip f = (none, c)) : body skip f = [] := by
  cases f with
  | none => rfl
  | some ls =>
    simp only [openNext] at h
    simp only [body]
    split at h
    · assumption
    · simp at h

theorem pending_advance (e : L) (r : Reader L) (h : r.hasNext = true) :
    pending (advance e r) <+: (r.cur.getD [] ++ allLines r.skip r.later) ∧
    (r.cur ≠ none → (∀ f ∈ r.later, Useful r.skip f) →
      pending (advance e r) = r.cur.getD [] ++ allLines r.skip r.later ∧ ((advance e r).hasNext = true → (advance e r).cur ≠ none) ∧
      (∀ f ∈ (advance e r).later, Useful (advance e r).skip f)) := by
  unfold advance
  rw [if_pos h]
  cases hc : r.cur with
  | none => simp [pending]
  | some ls =>
    cases ls with
    | cons l rest => simp [pending, h]
    | nil =>
      cases hl : r.later with
      | nil => simp [pending, allLines]
      | cons f fs =>
        cases ho : openNext r.skip f with
        | mk a c =>
          cases a with
          | none =>
            refine ⟨by simp [pending, ho], ?_⟩
            intro _ hu
            exact absurd (openNext_none ho) (hu f List.mem_cons_self)
          | some l =>
            obtain ⟨rest, rfl, hb⟩ := openNext_some ho
            simp only [pending, h, allLines, List.flatMap_cons, hb, ho]
            refine ⟨by simp, ?_⟩
            intro _ hu
            exact ⟨by simp, by simp, fun f hf => hu f (List.mem_cons_of_mem _ hf)⟩

theorem drain_prefix (e : L) (fuel : Nat) (r : Reader L) : drain e fuel r <+: pending r := by
  induction fuel generalizing r with
  | zero => simp [drain]
  | succ n ih =>
    rw [drain]
    split
    · rename_i h
      rw [pending, if_pos h]
      exact List.cons_prefix_cons.mpr ⟨rfl, (ih _).trans (pending_advance e r h).1⟩
    · simp

theorem drain_all (e : L) (fuel : Nat) (r : Reader L) (h1 : r.hasNext = true → r.cur ≠ none) (h2 : ∀ f ∈ r.later, Useful r.skip f)
    (hf : (pending r).length ≤ fuel) : drain e fuel r = pending r := by
  induction fuel generalizing r with
  | zero =>
    have : pending r = [] := List.eq_nil_of_length_eq_zero (by omega)
    simp [drain, this]
  | succ n ih =>
    rw [drain]
    split
    · rename_i h
      obtain ⟨ha, hb, hc⟩ := (pending_advance e r h).2 (h1 h) h2
      have hp : pending r = r.nextLine :: pending (advance e r) := by rw [pending, if_pos h, ha]
      rw [hp] at hf ⊢
      rw [ih _ hb hc (by simpa using hf)]
    · rename_i h
      simp [pending, h]

/-- Nothing is ever invented, repeated or reordered: the lines read are a prefix of the lines of all files in order. -/
theorem C16_prefix (e : L) (skip : Bool) (files : List (Option (List L))) (fuel : Nat) :
    drain e fuel (openReader e skip files) <+: allLines skip files := by
  refine (drain_prefix e fuel _).trans ?_
  unfold openReader
  cases files with
  | nil => simp [pending]
  | cons f fs =>
    cases f with
    | none => simp [pending]
    | some ls =>
      simp only [allLines, List.flatMap_cons, body]
      cases skip with
      | true =>
        simp only [if_true]
        cases ls with
        | nil => simp [advance, pending]
        | cons x rest => exact (pending_advance e ⟨true, e, some rest, fs, true⟩ rfl).1
      | false => exact (pending_advance e ⟨true, e, some ls, fs, false⟩ rfl).1

/-- Every line of every file is read, in order, exactly once, when every file has something to read. The number of lines bounds the reading loop. -/
theorem C16_all_partial (e : L) (skip : Bool) (files : List (Option (List L))) (hu : ∀ f ∈ files, Useful skip f) (fuel : Nat)
    (hf : (allLines skip files).length ≤ fuel) :
    drain e fuel (openReader e skip files) = allLines skip files := by
  cases files with
  | nil => cases fuel <;> simp [openReader, allLines, drain]
  | cons f fs =>
    have h0 := hu f List.mem_cons_self
    cases f with
    | none => exact absurd rfl h0
    | some ls =>
      have key : ∀ ls', body skip (some ls) = ls' →
          openReader e skip (some ls :: fs) = advance e ⟨true, e, some ls', fs, skip⟩ := by
        intro ls' hl
        unfold openReader
        cases skip with
        | true =>
          cases ls with
          | nil => exact absurd rfl h0
          | cons x rest => subst hl; rfl
        | false => subst hl; rfl
      have k := key _ rfl
      obtain ⟨ha, hb, hc⟩ := (pending_advance e ⟨true, e, some (body skip (some ls)), fs, skip⟩ rfl).2 (by simp)
        (fun f hf => hu f (List.mem_cons_of_mem _ hf))
      have hp : pending (advance e ⟨true, e, some (body skip (some ls)), fs, skip⟩) = allLines skip (some ls :: fs) := by
        rw [ha]; rfl
      rw [k, drain_all e fuel _ hb hc (by rw [hp]; exact hf), hp]

/-- A file without lines makes the reader stop: everything in later files is lost, whatever the number of reads. -/
theorem C16_empty_file_violated (fuel : Nat) :
    drain 0 (fuel + 1) (openReader 0 false [some [1], some [], some [2]]) = [1] ∧ allLines false [some [1], some [], some [2]] = [1, 2] := by
  refine ⟨?_, rfl⟩
  cases fuel <;> rfl

/-- A file with only a header line makes the reader stop. -/
theorem C16_header_only_violated (fuel : Nat) :
    drain 0 (fuel + 1) (openReader 0 true [some [9, 1], some [9], some [9, 2]]) = [1] ∧ allLines true [some [9, 1], some [9], some [9, 2]] = [1, 2] := by
  refine ⟨?_, rfl⟩
  cases fuel <;> rfl

/-- A file that cannot be opened makes the reader stop. -/
theorem C16_unreadable_violated (fuel : Nat) :
    drain 0 fuel (openReader 0 false [none, some [2]]) = [] ∧ allLines false [none, some [2]] = [2] := by
  refine ⟨?_, rfl⟩
  cases fuel <;> rfl

example : ∀ f ∈ [some [9, 1, 2], some [9, 3]], Useful true f := by unfold Useful; decide
example : drain 0 10 (openReader 0 true [some [9, 1, 2], some [9, 3]]) = [1, 2, 3] := by decide

end Verif.LineReader
