import Verif.Model.DataSet
import Mathlib.Data.List.Perm.Basic
import Mathlib.Data.List.Nodup
import Mathlib.Data.List.Range
import Mathlib.Tactic.Linarith
import Mathlib.Tactic.Positivity
import Mathlib.Tactic.NormNum

/-!
C19, C21: training datasets.

* C21 — whatever was read before, after a restart as many reads as there are records return every record of the dataset's part exactly once, in shuffler order if a
  shuffler is set, and every further read reports the end (`C21_epoch`, `C21_epoch_each_once`, `C21_in_memory`).
* C19 — two `BinaryDataSet`s opened with splits `s` and `s'` with `1 + s' = s` in float arithmetic deliver together every row exactly once (`C19_partition_partial`), for every
  row count up to 2^24; for the pair 0.9 / -0.1 of the library this covers every row count (`C19_partition_large_partial`). Two disagreements:
  the label-task search opens the same file with `r` and `-r`, whose parts overlap as soon as r > 1/2 (`C19_search_overlap_violated`), and
  with more than 2^24 rows the whole-file view (split 1) can claim a row that does not exist (`C19_large_violated`).
-/
namespace Verif.DataSet

variable {R : Type}

/-- Well-formed: the dataset's part lies inside the rows and the shuffler, if any, is a permutation of the record numbers (established by the constructors,
`setShuffler` and C18). -/
def WF (d : DataSet R) : Prop :=
  d.first + d.count ≤ d.rows.length ∧ ∀ p, d.shuffler = some p → p.Perm (List.range d.count)

/-- Specification: the order in which record numbers are delivered. -/
def order (d : DataSet R) : List Nat := d.shuffler.getD (List.range d.count)

/-- Specification: the records of the dataset's part of the file. -/
def part (d : DataSet R) : List R := (d.rows.drop d.first).take d.count

theorem order_perm (d : DataSet R) (h : WF d) : (order d).Perm (List.range d.count) := by
  unfold order
  cases hs : d.shuffler with
  | none => exact List.Perm.refl _
  | some p => exact h.2 p hs

theorem next_spec (d : DataSet R) (h : WF d) (hk : d.offset < d.count) :
    ∃ k r, (order d)[d.offset]? = some k ∧ k < d.count ∧ (part d)[k]? = some r ∧ next d = (.record r, { d with offset := d.offset + 1 }) := by
  have hp := order_perm d h
  have hl : (order d).length = d.count := by simpa using hp.length_eq
  have hk' : d.offset < (order d).length := by omega
  have hlt : (order d)[d.offset] < d.count := by
    have := hp.mem_iff.mp (List.getElem_mem hk')
    simpa using this
  have hr : (order d)[d.offset] + d.first < d.rows.length := by have := h.1; omega
  refine ⟨(order d)[d.offset], d.rows[(order d)[d.offset] + d.first], List.getElem?_eq_getElem hk', hlt, ?_, ?_⟩
  · rw [part, List.getElem?_take_of_lt hlt, List.getElem?_drop, Nat.add_comm, List.getElem?_eq_getElem hr]
  · unfold next
    rw [if_neg (by omega)]
    have e : pick d = some ((order d)[d.offset]) := by
      rw [← List.getElem?_eq_getElem hk', order, pick]
      cases hs : d.shuffler with
      | none => simp [hk]
      | some p => rfl
    rw [e]
    simp only
    rw [List.getElem?_eq_getElem hr]

theorem next_end (d : DataSet R) (hk : d.count ≤ d.offset) : next d = (.theEnd, d) := by
  unfold next; rw [if_pos hk]

theorem nexts_spec (d : DataSet R) (h : WF d) (n : Nat) (hn : d.offset + n ≤ d.count) :
    nexts n d = ((((order d).drop d.offset).take n).filterMap (fun k => (part d)[k]?.map Next.record), { d with offset := d.offset + n }) := by
  induction n generalizing d with
  | zero => simp [nexts]
  | succ n ih =>
    obtain ⟨k, r, h1, h2, h3, h4⟩ := next_spec d h (by omega)
    rw [nexts, h4]
    simp only
    rw [ih { d with offset := d.offset + 1 } h (by simp only; omega)]
    have hdrop : (order d).drop d.offset = k :: (order d).drop (d.offset + 1) := by
      obtain ⟨hlt, rfl⟩ := List.getElem?_eq_some_iff.mp h1
      exact List.drop_eq_getElem_cons hlt
    rw [hdrop, List.take_succ_cons, List.filterMap_cons, h3]
    simp only [Option.map_some, order, part]
    rw [show d.offset + 1 + n = d.offset + (n + 1) by omega]

theorem nexts_end (d : DataSet R) (n : Nat) (hk : d.count ≤ d.offset) : nexts n d = (List.replicate n .theEnd, d) := by
  induction n with
  | zero => rfl
  | succ n ih => rw [nexts, next_end d hk]; simp only [ih, List.replicate_succ]

theorem filterMap_some (l : List R) (idx : List Nat) (h : ∀ i ∈ idx, i < l.length) :
    idx.filterMap (fun k => l[k]?.map Next.record) = (idx.filterMap (l[·]?)).map Next.record := by
  rw [List.map_filterMap]

theorem filterMap_range' (data : List R) : (List.range data.length).filterMap (data[·]?) = data := by
  induction data with
  | nil => rfl
  | cons a as ih =>
    rw [List.length_cons, List.range_succ_eq_map, List.filterMap_cons]
    simp only [List.getElem?_cons_zero, List.filterMap_map]
    congr 1

theorem part_length (d : DataSet R) (h : WF d) : (part d).length = d.count := by
  rw [part, List.length_take, List.length_drop]; have := h.1; omega

/-- One epoch: after a restart, `recordCount` reads deliver exactly the records in shuffler order, without error, and all further reads report the end. -/
theorem C21_epoch (d : DataSet R) (h : WF d) (extra : Nat) :
    (nexts d.count (restart d)).1 = ((order d).filterMap ((part d)[·]?)).map Next.record ∧
    (nexts extra (nexts d.count (restart d)).2).1 = List.replicate extra .theEnd := by
  have hw : WF (restart d) := h
  have hs := nexts_spec (restart d) hw d.count (by simp [restart])
  have hl : (order d).length = d.count := by simpa using (order_perm d h).length_eq
  rw [hs]
  refine ⟨?_, ?_⟩
  · have e1 : (order (restart d)).drop (restart d).offset = order d := rfl
    have e2 : part (restart d) = part d := rfl
    rw [e1, e2, List.take_of_length_le (by omega), List.map_filterMap]
  · rw [nexts_end _ extra (by simp [restart])]

/-- ... so that every record of the part is delivered exactly once. -/
theorem C21_epoch_each_once (d : DataSet R) (h : WF d) :
    ∃ out : List R, (nexts d.count (restart d)).1 = out.map Next.record ∧ out.Perm (part d) ∧
      (d.shuffler = none → out = part d) := by
  refine ⟨_, (C21_epoch d h 0).1, ?_, ?_⟩
  · have := (order_perm d h).filterMap ((part d)[·]?)
    rw [show List.range d.count = List.range (part d).length by rw [part_length d h], filterMap_range'] at this
    exact this
  · intro hs
    rw [order, hs, Option.getD_none, ← part_length d h, filterMap_range']

/-- The in-memory dataset delivers all its pairs, whatever shuffler was accepted. -/
theorem C21_in_memory (pairs : List R) (s : Option (List Nat)) (hs : ∀ p, s = some p → p.Perm (List.range p.length))
    (d : DataSet R) (hd : setShuffler (inMemory pairs) s = some d) :
    WF d ∧ ∃ out : List R, (nexts pairs.length (restart d)).1 = out.map Next.record ∧ out.Perm pairs := by
  have key : WF d ∧ d.count = pairs.length ∧ part d = pairs := by
    cases s with
    | none =>
      simp only [setShuffler, Option.some.injEq] at hd
      subst hd
      exact ⟨⟨by simp [inMemory], by simp [inMemory]⟩, rfl, by simp [part, inMemory]⟩
    | some p =>
      simp only [setShuffler] at hd
      split at hd
      · rename_i hl
        simp only [Option.some.injEq] at hd
        subst hd
        refine ⟨⟨by simp [inMemory], ?_⟩, rfl, by simp [part, inMemory]⟩
        intro q hq
        simp only [Option.some.injEq] at hq
        subst hq
        have := hs p rfl
        rw [hl] at this
        exact this
      · simp at hd
  obtain ⟨hw, hc, hp⟩ := key
  obtain ⟨out, h1, h2, _⟩ := C21_epoch_each_once d hw
  rw [hc] at h1
  rw [hp] at h2
  exact ⟨hw, out, h1, h2⟩

/-! ### C19 -/

/-- Laws satisfied by IEEE single precision rounding (to nearest, in the normal range): monotone, exact on integers up to 2^24, and relative error at most 2^-24. -/
structure Rounding (rnd : ℚ → ℚ) : Prop where
  mono : ∀ a b, a ≤ b → rnd a ≤ rnd b
  exact : ∀ n : Nat, n ≤ 2 ^ 24 → rnd n = n
  above : ∀ a, 0 ≤ a → rnd a ≤ a * (1 + 1 / 2 ^ 24)
  below : ∀ a, 0 ≤ a → a * (1 - 1 / 2 ^ 24) ≤ rnd a

/-- All rows a dataset delivers in one unshuffled epoch. -/
def delivered (d : DataSet R) : List (Next R) := (nexts d.count (restart d)).1

theorem partition_core (rnd : ℚ → ℚ) (rows : List R) (s s' : ℚ) (h0 : 0 < s) (h1 : s' ≤ 0) (hc : rnd (1 + s') = s)
    (hn : rows.length < 2 ^ 64) (hle : positiveCount rnd rows.length s ≤ rows.length) :
    delivered (openSplit rnd rows s) ++ delivered (openSplit rnd rows s') = rows.map Next.record ∧
    WF (openSplit rnd rows s) ∧ WF (openSplit rnd rows s') := by
  have hoff : negativeOffset rnd rows.length s' = positiveCount rnd rows.length s := by
    rw [negativeOffset, positiveCount, hc]
  generalize hk : positiveCount rnd rows.length s = k at *
  have e1 : openSplit rnd rows s = ⟨rows, 0, k, none, 0⟩ := by rw [openSplit, if_pos h0, hk]
  have e2 : openSplit rnd rows s' = ⟨rows, k, rows.length - k, none, 0⟩ := by
    rw [openSplit, if_neg (not_lt.mpr h1)]
    simp only [hoff]
    congr 1
    rw [Nat.mod_eq_of_lt (show k < 2 ^ 64 by omega)]
    omega
  have w1 : WF (openSplit rnd rows s) := by rw [e1]; exact ⟨by simpa using hle, by simp⟩
  have w2 : WF (openSplit rnd rows s') := by rw [e2]; exact ⟨by simp only; omega, by simp⟩
  refine ⟨?_, w1, w2⟩
  obtain ⟨o1, a1, _, b1⟩ := C21_epoch_each_once _ w1
  obtain ⟨o2, a2, _, b2⟩ := C21_epoch_each_once _ w2
  rw [delivered, delivered, a1, a2, b1 (by rw [e1]), b2 (by rw [e2]), ← List.map_append, e1, e2]
  congr 1
  simp only [part, List.drop_zero]
  rw [List.take_of_length_le (l := rows.drop k) (by simp), List.take_append_drop]

/-- Complementary splits deliver every row exactly once between them (here: in file order), for up to 2^24 rows. -/
theorem C19_partition_partial (rnd : ℚ → ℚ) (hr : Rounding rnd) (rows : List R) (s s' : ℚ) (h0 : 0 < s) (h1 : s ≤ 1) (hs : s' ≤ 0)
    (hc : rnd (1 + s') = s) (hn : rows.length ≤ 2 ^ 24) :
    delivered (openSplit rnd rows s) ++ delivered (openSplit rnd rows s') = rows.map Next.record := by
  refine (partition_core rnd rows s s' h0 hs hc (by omega) ?_).1
  unfold positiveCount
  apply Nat.floor_le_of_le
  rw [hr.exact _ hn]
  have h : (rows.length : ℚ) * s ≤ rows.length := mul_le_of_le_one_right (by positivity) h1
  have := hr.mono _ _ h
  rwa [hr.exact _ hn] at this

/-- ... and for any number of rows when the fraction is at most 0.99, such as the 0.9 / -0.1 used by the library. -/
theorem C19_partition_large_partial (rnd : ℚ → ℚ) (hr : Rounding rnd) (rows : List R) (s s' : ℚ) (h0 : 0 < s) (h1 : s ≤ 99 / 100) (hs : s' ≤ 0)
    (hc : rnd (1 + s') = s) (hn : rows.length < 2 ^ 64) :
    delivered (openSplit rnd rows s) ++ delivered (openSplit rnd rows s') = rows.map Next.record := by
  refine (partition_core rnd rows s s' h0 hs hc hn ?_).1
  unfold positiveCount
  apply Nat.floor_le_of_le
  have hn0 : (0 : ℚ) ≤ rows.length := by positivity
  have a := hr.above _ hn0
  have b := hr.below _ hn0
  have hrn : (0 : ℚ) ≤ rnd rows.length := le_trans (mul_nonneg hn0 (by norm_num)) b
  have c := hr.above _ (mul_nonneg hrn h0.le)
  have d : rnd rows.length * s ≤ (rows.length * (1 + 1 / 2 ^ 24)) * (99 / 100) :=
    mul_le_mul a h1 h0.le (mul_nonneg hn0 (by norm_num))
  calc rnd (rnd rows.length * s) ≤ rnd rows.length * s * (1 + 1 / 2 ^ 24) := c
    _ ≤ (rows.length * (1 + 1 / 2 ^ 24)) * (99 / 100) * (1 + 1 / 2 ^ 24) := mul_le_mul_of_nonneg_right d (by norm_num)
    _ = rows.length * ((1 + 1 / 2 ^ 24) * (99 / 100) * (1 + 1 / 2 ^ 24)) := by ring
    _ ≤ rows.length * 1 := mul_le_mul_of_nonneg_left (by norm_num) hn0
    _ = rows.length := mul_one _

/-- Different splits `r` and `-r` of one file, as opened by the label-task search (/repo/src/util/task_utils.hpp 518-528 with 640 of 900 records), share rows: 422
of 1000 rows are in both parts. Exact arithmetic. -/
theorem C19_search_overlap_violated :
    (openSplit id (List.range 1000) (640 / 900 : ℚ)).count = 711 ∧
    (openSplit id (List.range 1000) (-(640 / 900) : ℚ)).first = 288 ∧
    (openSplit id (List.range 1000) (-(640 / 900) : ℚ)).count = 712 := by
  have e1 : positiveCount id 1000 (640 / 900) = 711 := by
    unfold positiveCount; rw [Nat.floor_eq_iff (by norm_num)]; norm_num
  have e2 : negativeOffset id 1000 (-(640 / 900)) = 288 := by
    unfold negativeOffset; rw [Nat.floor_eq_iff (by norm_num)]; norm_num
  refine ⟨?_, ?_, ?_⟩
  · rw [openSplit, if_pos (by norm_num), List.length_range, e1]
  · rw [openSplit, if_neg (by norm_num), List.length_range, e2]
  · rw [openSplit, if_neg (by norm_num), List.length_range, e2]
    rfl

/-- With 2^24 + 3 rows, single precision rounds the row count up: the whole-file view (split 1) claims one row more than there is, and reading it fails. -/
theorem C19_large_violated (rnd : ℚ → ℚ) (hr : ∀ n : Nat, rnd n = natToFloat n) (rows : List R) (hl : rows.length = 2 ^ 24 + 3) :
    (openSplit rnd rows 1).count = rows.length + 1 ∧
    (next { openSplit rnd rows 1 with offset := rows.length }).1 = .error := by
  have e1 : natToFloat (2 ^ 24 + 3) = 2 ^ 24 + 4 := by decide +kernel
  have e2 : natToFloat (2 ^ 24 + 4) = 2 ^ 24 + 4 := by decide +kernel
  have hc : (openSplit rnd rows 1) = ⟨rows, 0, rows.length + 1, none, 0⟩ := by
    rw [openSplit, if_pos (by norm_num), positiveCount, hr, hl, e1, mul_one, hr, e2, Nat.floor_natCast]
  rw [hc]
  refine ⟨rfl, ?_⟩
  simp [next, pick]

example : Rounding id := ⟨fun _ _ h => h, fun _ _ => rfl, fun a h => by simp only [id]; linarith [mul_nonneg h (show (0 : ℚ) ≤ 1 / 2 ^ 24 by norm_num)],
  fun a h => by simp only [id]; linarith [mul_nonneg h (show (0 : ℚ) ≤ 1 / 2 ^ 24 by norm_num)]⟩
example : delivered (openSplit id [1, 2, 3, 4, 5] (3 / 5 : ℚ)) ++ delivered (openSplit id [1, 2, 3, 4, 5] (-(2 / 5) : ℚ)) = [1, 2, 3, 4, 5].map Next.record :=
  (partition_core id _ _ _ (by norm_num) (by norm_num) (by norm_num) (by norm_num)
    (by unfold positiveCount; apply Nat.floor_le_of_le; norm_num)).1
example : (nexts 5 { inMemory [10, 20, 30] with shuffler := some [2, 0, 1] }).1 = [.record 30, .record 10, .record 20, .theEnd, .theEnd] := by decide
example : WF ({ inMemory [10, 20, 30] with shuffler := some [2, 0, 1] }) := by
  refine ⟨by decide, ?_⟩
  intro p hp; simp at hp; subst hp; decide

end Verif.DataSet
