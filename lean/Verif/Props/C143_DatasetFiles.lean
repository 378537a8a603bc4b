import Mathlib.Data.List.TakeWhile
import Verif.Model.DatasetFiles
import Verif.Props.C17_FileSorter
import Verif.Props.C121_CreateDataset

/-!
# C143: the files of creating a dataset

Creating a dataset changes no other file than the dataset and the files it makes on the way, whenever it is stopped; in the end the latter are gone; and it gives
the same dataset when it is called again after being stopped before the dataset was begun.

Recorded disagreements:
* the files on the way have names that a user can have given to files: `x.sorted.csv`, `x.given-expected.csv` and `chunk_0.txt` beside the source are overwritten
  and removed (`C143_lost_violated`);
* a file without a folder is sorted by way of the root folder; if it cannot be written, the dataset is made without any record (`C143_bare_violated`);
* a dataset whose creation was stopped while it was written counts as existing for ever (`C143_stopped_violated`), and so does one of another source
  (`C143_exists_violated`);
* an exception leaves files behind (`C143_left_violated`).
-/
namespace Verif.DatasetFiles
open Verif.TextCodec (Str NL)
open Verif.Decimal (dec dec_spec)
open Verif.CreateDataset (byteOrder)

/-- The files made on the way: next to the source and next to the dataset. -/
def Scratch (name base q : Str) : Prop :=
  q = base ++ text ".given-expected.csv" ∨ q = base ++ text ".sorted.csv" ∨ (∃ i, q = chunkPath (parent (organizedOf base)) i) ∨ q = rawOf name

/-! ### Different paths -/

theorem last_csv (b : Str) : (csvOf b).getLast? = some 118 := by unfold csvOf; rw [List.getLast?_append, show (text ".csv").getLast? = some 118 by decide +kernel]; rfl
theorem last_organized (b : Str) : (organizedOf b).getLast? = some 118 := by unfold organizedOf; rw [List.getLast?_append, show (text ".given-expected.csv").getLast? = some 118 by decide +kernel]; rfl
theorem last_sorted (b : Str) : (sortedOf b).getLast? = some 118 := by unfold sortedOf; rw [List.getLast?_append, show (text ".sorted.csv").getLast? = some 118 by decide +kernel]; rfl
theorem last_chunk (f : Str) (i : Nat) : (chunkPath f i).getLast? = some 116 := by unfold chunkPath; rw [List.getLast?_append, show (text ".txt").getLast? = some 116 by decide +kernel]; rfl
theorem last_raw (n : Str) : (rawOf n).getLast? = some 110 := by unfold rawOf; rw [List.getLast?_append, show (text "/raw.bin").getLast? = some 110 by decide +kernel]; rfl
theorem last_final (n : Str) : (finalOf n).getLast? = some 110 := by unfold finalOf; rw [List.getLast?_append, show (text "/dataset.bin").getLast? = some 110 by decide +kernel]; rfl

theorem apart {a b : Str} {x y : UInt8} (ha : a.getLast? = some x) (hb : b.getLast? = some y) (h : x ≠ y) : a ≠ b := by
  rintro rfl
  rw [ha] at hb
  exact h (Option.some.inj hb)

theorem csv_organized (b : Str) : csvOf b ≠ organizedOf b := fun h => absurd (List.append_cancel_left h) (by decide +kernel)
theorem csv_sorted (b : Str) : csvOf b ≠ sortedOf b := fun h => absurd (List.append_cancel_left h) (by decide +kernel)
theorem organized_sorted (b : Str) : organizedOf b ≠ sortedOf b := fun h => absurd (List.append_cancel_left h) (by decide +kernel)

theorem final_raw (n m : Str) : finalOf n ≠ rawOf m := by
  intro h
  have := congrArg (fun s : Str => s.reverse[4]?) h
  simp only [finalOf, rawOf, List.reverse_append] at this
  rw [List.getElem?_append_left (by decide +kernel), List.getElem?_append_left (by decide +kernel)] at this
  exact absurd this (by decide +kernel)

theorem final_final (n m : Str) (h : finalOf n = finalOf m) : n = m := List.append_cancel_left (List.append_cancel_right h)

theorem chunk_chunk (f : Str) (i j : Nat) (h : chunkPath f i = chunkPath f j) : i = j := by
  have h := List.append_cancel_left (List.append_cancel_right h |>.trans rfl)
  rw [← (dec_spec i).1, h, (dec_spec j).1]

/-- The source is not one of the files. -/
theorem source_kept (name base : Str) : ¬ Scratch name base (csvOf base) ∧ csvOf base ≠ finalOf name := by
  refine ⟨?_, apart (last_csv _) (last_final _) (by decide)⟩
  rintro (h | h | ⟨i, h⟩ | h)
  · exact csv_organized base h
  · exact csv_sorted base h
  · exact apart (last_csv _) (last_chunk _ i) (by decide) h
  · exact apart (last_csv _) (last_raw _) (by decide) h

/-- No other dataset is one of the files. -/
theorem datasets_kept (name base other : Str) (h : other ≠ name) : ¬ Scratch name base (finalOf other) ∧ finalOf other ≠ finalOf name := by
  refine ⟨?_, fun e => h (final_final _ _ e)⟩
  rintro (h | h | ⟨i, h⟩ | h)
  · exact apart (last_final _) (last_organized base) (by decide) h
  · exact apart (last_final _) (last_sorted base) (by decide) h
  · exact apart (last_final _) (last_chunk _ i) (by decide) h
  · exact final_raw _ _ h

/-! ### Only these files -/

theorem perform_other (w : Str → Bool) (k : Disk) (a : Act) (q : Str) (h : q ≠ a.path) : perform w k a q = k q := by
  cases a with
  | write p s =>
    show (if w p then put k p (some s) else k) q = k q
    split
    · unfold put; rw [if_neg (show q ≠ p from h)]
    · rfl
  | remove p => show put k p none q = k q; unfold put; rw [if_neg (show q ≠ p from h)]

theorem play_other (w : Str → Bool) (acts : List Act) (q : Str) : ∀ (k : Disk), (∀ a ∈ acts, q ≠ a.path) → play w k acts q = k q := by
  induction acts with
  | nil => intro k _; rfl
  | cons a acts ih =>
    intro k h
    show play w (perform w k a) acts q = k q
    rw [ih _ (fun x hx => h x (List.mem_cons_of_mem _ hx)), perform_other w k a q (h a (by simp))]

theorem stopped_other (w : Str → Bool) (k : Disk) (acts : List Act) (k' : Disk) (hs : Stopped w k acts k') (q : Str) (h : ∀ a ∈ acts, q ≠ a.path) : k' q = k q := by
  obtain ⟨done, rest, rfl, h1⟩ := hs
  have hd : play w k done q = k q := play_other w done q k fun a ha => h a (List.mem_append_left _ ha)
  rcases h1 with rfl | ⟨p, s, r, n, rfl, _, rfl⟩
  · exact hd
  · unfold put
    rw [if_neg, hd]
    exact h (.write p s) (by simp)

theorem sort_paths (w : Str → Bool) (k : Disk) (file result : Str) (a : Act) (h : a ∈ sortActs w k file result) :
    a.path = result ∨ ∃ i, a.path = chunkPath (parent file) i := by
  unfold sortActs at h
  dsimp only at h
  rw [List.mem_append, List.mem_map] at h
  rcases h with ⟨c, _, rfl⟩ | h
  · exact Or.inr ⟨c.2, rfl⟩
  · rcases List.mem_cons.1 h with rfl | h
    · exact Or.inl rfl
    · obtain ⟨i, _, rfl⟩ := List.mem_map.1 h
      exact Or.inr ⟨i, rfl⟩

theorem touched (work : Work) (w : Str → Bool) (k : Disk) (name base : Str) (a : Act) (h : a ∈ (statement work w k name base).2) :
    Scratch name base a.path ∨ a.path = finalOf name := by
  have h1 : ∀ s, ∀ x ∈ [Act.write (organizedOf base) s], Scratch name base x.path ∨ x.path = finalOf name := by
    intro s x hx
    rw [List.mem_singleton] at hx
    subst hx
    exact Or.inl (Or.inl rfl)
  have h2 : ∀ s k1, ∀ x ∈ [Act.write (organizedOf base) s] ++ sortActs w k1 (organizedOf base) (sortedOf base) ++ [.remove (organizedOf base)],
      Scratch name base x.path ∨ x.path = finalOf name := by
    intro s k1 x hx
    rw [List.mem_append, List.mem_append, List.mem_singleton (b := Act.remove _)] at hx
    rcases hx with (hx | hx) | rfl
    · exact h1 s x hx
    · rcases sort_paths _ _ _ _ _ hx with e | ⟨i, e⟩
      · exact Or.inl (Or.inr (Or.inl e))
      · exact Or.inl (Or.inr (Or.inr (Or.inl ⟨i, e⟩)))
    · exact Or.inl (Or.inl rfl)
  have h3 : ∀ s k1 t, ∀ x ∈ [Act.write (organizedOf base) s] ++ sortActs w k1 (organizedOf base) (sortedOf base) ++ [.remove (organizedOf base)] ++ [.write (rawOf name) t],
      Scratch name base x.path ∨ x.path = finalOf name := by
    intro s k1 t x hx
    rw [List.mem_append, List.mem_singleton] at hx
    rcases hx with hx | rfl
    · exact h2 s k1 x hx
    · exact Or.inl (Or.inr (Or.inr (Or.inr rfl)))
  unfold statement at h
  split at h
  · cases h
  · split at h
    · cases h
    · dsimp only at h
      split at h
      · exact h1 _ a h
      · split at h
        · exact h1 _ a h
        · exact h1 _ a h
        · split at h
          · exact h3 _ _ _ a h
          · split at h
            · exact h3 _ _ _ a h
            · rw [List.mem_append] at h
              rcases h with h | h
              · exact h3 _ _ _ a h
              · simp only [List.mem_cons, List.not_mem_nil, or_false] at h
                rcases h with rfl | rfl | rfl
                · exact Or.inl (Or.inr (Or.inl rfl))
                · exact Or.inr rfl
                · exact Or.inl (Or.inr (Or.inr (Or.inr rfl)))

/-- C143. Whenever the statement is stopped, and when it ends, every file except the dataset and the files made on the way is as it was. -/
theorem C143_others (work : Work) (w : Str → Bool) (k : Disk) (name base : Str) (k' : Disk)
    (h : Stopped w k (statement work w k name base).2 k' ∨ k' = after work w k name base) (q : Str) (hq : ¬ Scratch name base q) (hf : q ≠ finalOf name) :
    k' q = k q := by
  have hall : ∀ a ∈ (statement work w k name base).2, q ≠ a.path := by
    rintro a ha rfl
    rcases touched work w k name base a ha with h | h
    · exact hq h
    · exact hf h
  rcases h with h | rfl
  · exact stopped_other w k _ k' h q hall
  · exact play_other w _ q k hall

/-- C143. The source and all other datasets in particular. -/
theorem C143_kept (work : Work) (w : Str → Bool) (k : Disk) (name base : Str) (k' : Disk)
    (h : Stopped w k (statement work w k name base).2 k' ∨ k' = after work w k name base) :
    k' (csvOf base) = k (csvOf base) ∧ ∀ other, other ≠ name → k' (finalOf other) = k (finalOf other) :=
  ⟨C143_others work w k name base k' h _ (source_kept name base).1 (source_kept name base).2,
    fun other ho => C143_others work w k name base k' h _ (datasets_kept name base other ho).1 (datasets_kept name base other ho).2⟩

/-- C143. An existing dataset is left alone, and nothing else is touched. -/
theorem C143_existing (work : Work) (w : Str → Bool) (k : Disk) (name base : Str) (h : (k (finalOf name)).isSome = true) :
    statement work w k name base = (.existing, []) ∧ after work w k name base = k := by
  have : statement work w k name base = (.existing, []) := by unfold statement; rw [if_pos h]
  refine ⟨this, ?_⟩
  unfold after
  rw [this]
  rfl

/-! ### Creating -/

/-- `merged` is what the merge loop writes. -/
theorem merged_unique (cs : List (List Str)) (hs : ∀ c ∈ cs, c.Pairwise (· ≤ ·)) (he : ∀ c ∈ cs, ∀ l ∈ c, l ≠ []) (out : List Str)
    (h : FileSorter.Merge List.isEmpty true (cs.filter (· ≠ [])) none out) : out = merged cs := by
  have hh : FileSorter.Heap (cs.filter (· ≠ [])) := by
    intro c hc
    rw [List.mem_filter] at hc
    exact ⟨by simpa using hc.2, hs c hc.1⟩
  obtain ⟨h1, h2, _⟩ := FileSorter.merge_distinct h hh (by
    intro x hx
    rw [FileSorter.flatten_filter] at hx
    obtain ⟨c, hc, hx⟩ := List.mem_flatten.1 hx
    simpa using he c hc x hx) (by simp)
  have hp : (merged cs).Pairwise (· ≤ ·) := List.pairwise_insertionSort _ _
  have hperm : (merged cs).Perm cs.flatten.dedup := List.perm_insertionSort _ _
  have hnd : (merged cs).Nodup := hperm.nodup_iff.2 (List.nodup_dedup _)
  have h3 : out.Pairwise (· ≤ ·) := h2.imp le_of_lt
  refine List.Perm.eq_of_pairwise (fun a b _ _ => le_antisymm) h3 hp ?_
  rw [List.perm_ext_iff_of_nodup (h2.imp ne_of_lt) hnd]
  intro x
  rw [h1 x, hperm.mem_iff, List.mem_dedup, FileSorter.flatten_filter]
  simp

theorem merged_spec (cs : List (List Str)) : (merged cs).Pairwise (· < ·) ∧ ∀ l, l ∈ merged cs ↔ l ∈ cs.flatten := by
  have hp : (merged cs).Pairwise (· ≤ ·) := List.pairwise_insertionSort _ _
  have hperm : (merged cs).Perm cs.flatten.dedup := List.perm_insertionSort _ _
  have hnd : (merged cs).Nodup := hperm.nodup_iff.2 (List.nodup_dedup _)
  refine ⟨(hp.and hnd).imp fun h => lt_of_le_of_ne h.1 h.2, fun l => ?_⟩
  rw [hperm.mem_iff, List.mem_dedup]

theorem play_append (w : Str → Bool) (k : Disk) (a b : List Act) : play w k (a ++ b) = play w (play w k a) b := List.foldl_append

theorem play_chunks (w : Str → Bool) (f : Str) (hw : ∀ i, w (chunkPath f i) = true) (cs : List (List Str)) : ∀ (k : Disk) (m i : Nat) (h : i < cs.length),
    play w k ((cs.zipIdx m).map fun c => .write (chunkPath f c.2) (Lines.putLines NL c.1)) (chunkPath f (m + i)) = some (Lines.putLines NL cs[i]) := by
  induction cs with
  | nil => intro k m i h; exact absurd h (by simp)
  | cons c cs ih =>
    intro k m i h
    rw [List.zipIdx_cons, List.map_cons]
    show play w (perform w k (.write (chunkPath f m) (Lines.putLines NL c))) _ _ = _
    cases i with
    | zero =>
      rw [play_other]
      · show (if w (chunkPath f m) then put k (chunkPath f m) _ else k) _ = _
        rw [hw m, if_pos rfl]
        unfold put
        rw [if_pos (by simp)]
        rfl
      · intro a ha
        obtain ⟨x, hx, rfl⟩ := List.mem_map.1 ha
        intro e
        have := chunk_chunk f _ _ e
        have := List.le_snd_of_mem_zipIdx hx
        omega
    | succ i =>
      have := ih (perform w k (.write (chunkPath f m) (Lines.putLines NL c))) (m + 1) i (by simpa using h)
      rw [show m + (i + 1) = m + 1 + i by omega, this]
      rfl

theorem openChunks_all (k : Disk) (f : Str) (cs : List (List Str)) (hn : ∀ c ∈ cs, ∀ l ∈ c, NL ∉ l) (m : Nat)
    (h : ∀ i (h : i < cs.length), k (chunkPath f (m + i)) = some (Lines.putLines NL cs[i])) : openChunks k f (List.range' m cs.length) = cs := by
  induction cs generalizing m with
  | nil => rfl
  | cons c cs ih =>
    rw [List.length_cons, List.range'_succ, openChunks, show k (chunkPath f m) = some (Lines.putLines NL c) from h 0 (by simp)]
    dsimp only
    rw [Lines.getLines_putLines NL c (hn c (by simp)), ih (fun x hx => hn x (List.mem_cons_of_mem _ hx)) (m + 1) ?_]
    intro i hi
    have := h (i + 1) (by simpa using hi)
    rw [show m + 1 + i = m + (i + 1) by omega, this]
    rfl

/-- Every file on the way and the dataset can be written. -/
def Writable (w : Str → Bool) (name base : Str) : Prop := ∀ q, Scratch name base q ∨ q = finalOf name → w q = true

/-- The lines of a file that are sorted: without empty lines. -/
def IsSorted (txt : Str) (ls : List Str) : Prop := ls.Pairwise (· < ·) ∧ ∀ l, l ∈ ls ↔ l ∈ Lines.getLines NL txt ∧ l ≠ []

theorem IsSorted.unique {txt : Str} {a b : List Str} (ha : IsSorted txt a) (hb : IsSorted txt b) : a = b := by
  refine List.Perm.eq_of_pairwise (fun a b _ _ => le_antisymm) (ha.1.imp le_of_lt) (hb.1.imp le_of_lt) ?_
  rw [List.perm_ext_iff_of_nodup (ha.1.imp ne_of_lt) (hb.1.imp ne_of_lt)]
  intro x
  rw [ha.2, hb.2]

theorem sort_ok (w : Str → Bool) (k : Disk) (name base txt : Str) (hw : Writable w name base) (hk : k (organizedOf base) = some txt) :
    ∃ ls, IsSorted txt ls ∧ play w k (sortActs w k (organizedOf base) (sortedOf base)) (sortedOf base) = some (Lines.putLines NL ls) ∧
      (∀ i, i < (FileSorter.chunks List.isEmpty 10000 (Lines.getLines NL txt)).length →
        play w k (sortActs w k (organizedOf base) (sortedOf base)) (chunkPath (parent (organizedOf base)) i) = none) ∧
      ∀ i, (FileSorter.chunks List.isEmpty 10000 (Lines.getLines NL txt)).length ≤ i →
        play w k (sortActs w k (organizedOf base) (sortedOf base)) (chunkPath (parent (organizedOf base)) i) = k (chunkPath (parent (organizedOf base)) i) := by
  have hwc : ∀ i, w (chunkPath (parent (organizedOf base)) i) = true := fun i => hw _ (Or.inl (Or.inr (Or.inr (Or.inl ⟨i, rfl⟩))))
  have hws : w (sortedOf base) = true := hw _ (Or.inl (Or.inr (Or.inl rfl)))
  unfold sortActs
  rw [hk, Option.getD_some]
  dsimp only
  set cs := FileSorter.chunks List.isEmpty 10000 (Lines.getLines NL txt) with hcs
  obtain ⟨hperm, _⟩ := FileSorter.chunks_spec List.isEmpty 10000 (Lines.getLines NL txt)
  have hmem : ∀ l, l ∈ cs.flatten ↔ l ∈ Lines.getLines NL txt ∧ l ≠ [] := by
    intro l
    rw [hcs, hperm.mem_iff, List.mem_filter]
    simp
  have hopen : openChunks (play w k (cs.zipIdx.map fun c => .write (chunkPath (parent (organizedOf base)) c.2) (Lines.putLines NL c.1)))
      (parent (organizedOf base)) (List.range cs.length) = cs := by
    rw [List.range_eq_range']
    refine openChunks_all _ _ cs ?_ 0 fun i h => play_chunks w _ hwc cs k 0 i h
    intro c hc l hl
    exact Lines.getLines_no_newline NL txt l ((hmem l).1 (List.mem_flatten.2 ⟨c, hc, hl⟩)).1
  rw [hopen]
  have hremove : ∀ (k : Disk) (n i : Nat), i < n →
      play w k ((List.range n).map fun i => .remove (chunkPath (parent (organizedOf base)) i)) (chunkPath (parent (organizedOf base)) i) = none := by
    intro k n
    induction n with
    | zero => intro i h; omega
    | succ n ih =>
      intro i h
      rw [List.range_succ, List.map_append, play_append]
      show put _ (chunkPath (parent (organizedOf base)) n) none _ = none
      unfold put
      split
      · rfl
      · rename_i hne
        exact ih i (by
          rcases Nat.lt_succ_iff_lt_or_eq.1 h with h | rfl
          · exact h
          · exact absurd rfl hne)
  refine ⟨merged cs, ⟨(merged_spec cs).1, fun l => by rw [(merged_spec cs).2, hmem]⟩, ?_, ?_, ?_⟩
  · rw [play_append]
    show play w (perform w _ (.write (sortedOf base) _)) _ _ = _
    rw [play_other]
    · show (if w (sortedOf base) then put _ (sortedOf base) _ else _) _ = _
      rw [hws, if_pos rfl]
      unfold put
      rw [if_pos rfl]
    · intro a ha
      obtain ⟨i, _, rfl⟩ := List.mem_map.1 ha
      exact apart (last_sorted base) (last_chunk _ i) (by decide)
  · intro i hi
    rw [play_append]
    exact hremove _ _ i hi
  · intro i hi
    refine play_other w _ _ k ?_
    intro a ha e
    rcases List.mem_append.1 ha with ha | ha
    · obtain ⟨c, hc, rfl⟩ := List.mem_map.1 ha
      have h1 := chunk_chunk _ _ _ e
      have h2 := List.snd_lt_of_mem_zipIdx hc
      omega
    · rcases List.mem_cons.1 ha with rfl | ha
      · exact apart (last_sorted base) (last_chunk _ i) (by decide) e.symm
      · obtain ⟨j, hj, rfl⟩ := List.mem_map.1 ha
        have h1 := chunk_chunk _ _ _ e
        rw [List.mem_range] at hj
        omega

/-- The number of chunk files for a source. -/
def chunkCount (txt : Str) : Nat := (FileSorter.chunks List.isEmpty 10000 (Lines.getLines NL txt)).length

/-- C143. If everything can be written and nothing throws, the dataset is made from the sorted lines, and nothing of the files on the way is left. -/
theorem C143_created (work : Work) (w : Str → Bool) (k : Disk) (name base source txt : Str) (hw : Writable w name base) (hnew : k (finalOf name) = none)
    (hsrc : k (csvOf base) = some source) (ho : work.organize source = (txt, .done)) (hraw : ∀ ls, IsSorted txt ls → (work.raw (Lines.putLines NL ls)).2 = true) :
    (statement work w k name base).1 = .created ∧
      (∃ ls, IsSorted txt ls ∧ after work w k name base (finalOf name) = some (work.final (work.raw (Lines.putLines NL ls)).1)) ∧
      after work w k name base (organizedOf base) = none ∧ after work w k name base (sortedOf base) = none ∧ after work w k name base (rawOf name) = none ∧
      (∀ i, i < chunkCount txt → after work w k name base (chunkPath (parent (organizedOf base)) i) = none) ∧
      ∀ i, chunkCount txt ≤ i → after work w k name base (chunkPath (parent (organizedOf base)) i) = k (chunkPath (parent (organizedOf base)) i) := by
  have hwo : w (organizedOf base) = true := hw _ (Or.inl (Or.inl rfl))
  have hwr : w (rawOf name) = true := hw _ (Or.inl (Or.inr (Or.inr (Or.inr rfl))))
  have hwf : w (finalOf name) = true := hw _ (Or.inr rfl)
  have hk1 : play w k [Act.write (organizedOf base) txt] (organizedOf base) = some txt := by
    show (if w (organizedOf base) then put k (organizedOf base) (some txt) else k) _ = _
    rw [hwo, if_pos rfl]
    unfold put
    rw [if_pos rfl]
  obtain ⟨ls, hls, hsorted, hgone, hrest⟩ := sort_ok w _ name base txt hw hk1
  set k1 := play w k [Act.write (organizedOf base) txt] with hk1'
  set a2 := [Act.write (organizedOf base) txt] ++ sortActs w k1 (organizedOf base) (sortedOf base) ++ [.remove (organizedOf base)] with ha2
  have hp2 : play w k a2 = put (play w k1 (sortActs w k1 (organizedOf base) (sortedOf base))) (organizedOf base) none := by
    rw [ha2, play_append, play_append]
    rfl
  have hs2 : play w k a2 (sortedOf base) = some (Lines.putLines NL ls) := by
    rw [hp2]
    unfold put
    rw [if_neg (organized_sorted base).symm, hsorted]
  set r := work.raw (Lines.putLines NL ls) with hr
  have hp3 : play w k (a2 ++ [.write (rawOf name) r.1]) = put (play w k a2) (rawOf name) (some r.1) := by
    rw [play_append]
    show (if w (rawOf name) then put _ (rawOf name) (some r.1) else _) = _
    rw [hwr, if_pos rfl]
  have hp4 : play w k (a2 ++ [.write (rawOf name) r.1] ++ [.remove (sortedOf base)]) = put (put (play w k a2) (rawOf name) (some r.1)) (sortedOf base) none := by
    rw [play_append, hp3]
    rfl
  have hrs : rawOf name ≠ sortedOf base := apart (last_raw _) (last_sorted _) (by decide)
  have h4 : play w k (a2 ++ [.write (rawOf name) r.1] ++ [.remove (sortedOf base)]) (rawOf name) = some r.1 := by
    rw [hp4]
    unfold put
    rw [if_neg hrs, if_pos rfl]
  have hst : statement work w k name base =
      (.created, a2 ++ [.write (rawOf name) r.1] ++ [.remove (sortedOf base), .write (finalOf name) (work.final r.1), .remove (rawOf name)]) := by
    unfold statement
    rw [hnew, if_neg (by simp), hsrc]
    dsimp only
    rw [ho]
    dsimp only
    rw [hwo, if_neg (by simp), ← hk1', ← ha2, hs2, Option.getD_some, ← hr, hwr, if_neg (by rw [hraw ls hls]; simp), if_neg, h4, Option.getD_some]
    rw [hp3]
    unfold put
    rw [if_neg hrs.symm, hs2]
    simp
  have haft : after work w k name base = put (put (put (put (play w k a2) (rawOf name) (some r.1)) (sortedOf base) none) (finalOf name) (some (work.final r.1))) (rawOf name) none := by
    unfold after
    rw [hst, play_append, hp3]
    show put (if w (finalOf name) then put _ (finalOf name) (some (work.final r.1)) else _) (rawOf name) none = _
    rw [hwf, if_pos rfl]
    rfl
  have hfr := final_raw name name
  have hos := organized_sorted base
  have hor : organizedOf base ≠ rawOf name := apart (last_organized _) (last_raw _) (by decide)
  have hof : organizedOf base ≠ finalOf name := apart (last_organized _) (last_final _) (by decide)
  have hsf : sortedOf base ≠ finalOf name := apart (last_sorted _) (last_final _) (by decide)
  have hc : ∀ i, after work w k name base (chunkPath (parent (organizedOf base)) i) = play w k1 (sortActs w k1 (organizedOf base) (sortedOf base)) (chunkPath (parent (organizedOf base)) i) := by
    intro i
    rw [haft, hp2]
    unfold put
    rw [if_neg (apart (last_chunk _ i) (last_raw _) (by decide)), if_neg (apart (last_chunk _ i) (last_final _) (by decide)),
      if_neg (apart (last_chunk _ i) (last_sorted _) (by decide)), if_neg (apart (last_chunk _ i) (last_raw _) (by decide)),
      if_neg (apart (last_chunk _ i) (last_organized _) (by decide))]
  refine ⟨by rw [hst], ⟨ls, hls, ?_⟩, ?_, ?_, ?_, ?_, ?_⟩
  · rw [haft]; unfold put; rw [if_neg hfr, if_pos rfl]
  · rw [haft, hp2]; unfold put; rw [if_neg hor, if_neg hof, if_neg hos, if_neg hor, if_pos rfl]
  · rw [haft]; unfold put; rw [if_neg hrs.symm, if_neg hsf, if_pos rfl]
  · rw [haft]; unfold put; rw [if_pos rfl]
  · intro i hi
    rw [hc i]
    exact hgone i hi
  · intro i hi
    rw [hc i, hrest i hi, hk1']
    refine play_other w _ _ k ?_
    intro a ha
    rw [List.mem_singleton] at ha
    subst ha
    exact apart (last_chunk _ i) (last_organized _) (by decide)

/-- C143. Stopped at any time before the dataset was begun, the statement can be repeated: it gives the dataset it would have given. -/
theorem C143_repair (work : Work) (w : Str → Bool) (k k' : Disk) (name base source txt : Str) (hw : Writable w name base) (hnew : k (finalOf name) = none)
    (hsrc : k (csvOf base) = some source) (ho : work.organize source = (txt, .done)) (hraw : ∀ ls, IsSorted txt ls → (work.raw (Lines.putLines NL ls)).2 = true)
    (hs : Stopped w k (statement work w k name base).2 k') (hbefore : k' (finalOf name) = none) :
    (statement work w k' name base).1 = .created ∧ after work w k' name base (finalOf name) = after work w k name base (finalOf name) := by
  have hsrc' : k' (csvOf base) = some source := by rw [(C143_kept work w k name base k' (Or.inl hs)).1, hsrc]
  obtain ⟨_, ⟨ls, h1, h2⟩, _⟩ := C143_created work w k name base source txt hw hnew hsrc ho hraw
  obtain ⟨h0, ⟨ls', h1', h2'⟩, _⟩ := C143_created work w k' name base source txt hw hbefore hsrc' ho hraw
  refine ⟨h0, ?_⟩
  rw [h2, h2', h1.unique h1']

/-! ### Disagreements -/

theorem acts_created (work : Work) (w : Str → Bool) (k : Disk) (name base : Str) (h : (statement work w k name base).1 = .created) :
    ∃ a d, (statement work w k name base).2 = a ++ [.write (finalOf name) d, .remove (rawOf name)] := by
  unfold statement at h ⊢
  split at h
  · cases h
  · rename_i h1
    rw [if_neg h1]
    split at h
    · cases h
    · rename_i src h2
      dsimp only at h ⊢
      split at h
      · split at h <;> cases h
      · rename_i h3
        rw [if_neg h3]
        split at h
        · cases h
        · cases h
        · rename_i h4
          split at h
          · cases h
          · rename_i h5
            rw [if_neg h5]
            split at h
            · cases h
            · rename_i h6
              rw [if_neg h6]
              have key : ∀ (l : List Act) (x y z : Act), l ++ [x, y, z] = (l ++ [x]) ++ [y, z] := fun l x y z => by simp
              exact ⟨_, _, key _ _ _ _⟩

/-- C143 does not hold for a statement that is stopped while the dataset is written: whatever part of it is there counts as the dataset, and all later statements
report success without doing anything. -/
theorem C143_stopped_violated (work : Work) (w : Str → Bool) (k : Disk) (name base source txt : Str) (hw : Writable w name base) (hnew : k (finalOf name) = none)
    (hsrc : k (csvOf base) = some source) (ho : work.organize source = (txt, .done)) (hraw : ∀ ls, IsSorted txt ls → (work.raw (Lines.putLines NL ls)).2 = true) :
    ∃ d, after work w k name base (finalOf name) = some d ∧ ∀ n, ∃ k', Stopped w k (statement work w k name base).2 k' ∧ k' (finalOf name) = some (d.take n) ∧
      ∀ base', statement work w k' name base' = (.existing, []) := by
  obtain ⟨hc, _⟩ := C143_created work w k name base source txt hw hnew hsrc ho hraw
  obtain ⟨a, d, had⟩ := acts_created work w k name base hc
  refine ⟨d, ?_, fun n => ⟨put (play w k a) (finalOf name) (some (d.take n)), ⟨a, _, had, Or.inr ⟨_, _, _, n, rfl, hw _ (Or.inr rfl), rfl⟩⟩, ?_, ?_⟩⟩
  · unfold after
    rw [had, play_append]
    show put (if w (finalOf name) then put _ (finalOf name) (some d) else _) (rawOf name) none _ = _
    rw [hw _ (Or.inr rfl), if_pos rfl]
    unfold put
    rw [if_neg (final_raw _ _), if_pos rfl]
  · unfold put; rw [if_pos rfl]
  · intro base'
    refine (C143_existing work w _ name base' ?_).1
    unfold put
    rw [if_pos rfl]
    rfl

/-- C143 does not hold for a dataset of that name made from something else: success is reported, and the dataset is still the one made from the other file. -/
theorem C143_exists_violated (work : Work) (w : Str → Bool) (k : Disk) (name base source txt : Str) (hw : Writable w name base) (hnew : k (finalOf name) = none)
    (hsrc : k (csvOf base) = some source) (ho : work.organize source = (txt, .done)) (hraw : ∀ ls, IsSorted txt ls → (work.raw (Lines.putLines NL ls)).2 = true)
    (base' : Str) : (statement work w (after work w k name base) name base').1 = .existing ∧
      after work w (after work w k name base) name base' = after work w k name base := by
  obtain ⟨_, ⟨ls, _, h2⟩, _⟩ := C143_created work w k name base source txt hw hnew hsrc ho hraw
  obtain ⟨h3, h4⟩ := C143_existing work w (after work w k name base) name base' (by rw [h2]; rfl)
  exact ⟨by rw [h3], h4⟩

/-- C143 does not hold for files of the user with the names of the files on the way: they are gone, and success is reported. -/
theorem C143_lost_violated (work : Work) (w : Str → Bool) (k : Disk) (name base source txt mine yours theirs : Str) (hw : Writable w name base)
    (hnew : k (finalOf name) = none) (hsrc : k (csvOf base) = some source) (ho : work.organize source = (txt, .done))
    (hraw : ∀ ls, IsSorted txt ls → (work.raw (Lines.putLines NL ls)).2 = true) (_hmine : k (base ++ text ".given-expected.csv") = some mine)
    (_hyours : k (base ++ text ".sorted.csv") = some yours) (_htheirs : k (chunkPath (parent (organizedOf base)) 0) = some theirs)
    (hsome : ∃ l ∈ Lines.getLines NL txt, l ≠ []) :
    (statement work w k name base).1 = .created ∧ after work w k name base (base ++ text ".given-expected.csv") = none ∧
      after work w k name base (base ++ text ".sorted.csv") = none ∧ after work w k name base (chunkPath (parent (organizedOf base)) 0) = none := by
  obtain ⟨h0, _, h1, h2, _, h3, _⟩ := C143_created work w k name base source txt hw hnew hsrc ho hraw
  refine ⟨h0, h1, h2, h3 0 ?_⟩
  obtain ⟨l, hl, hne⟩ := hsome
  unfold chunkCount
  obtain ⟨hperm, _⟩ := FileSorter.chunks_spec List.isEmpty 10000 (Lines.getLines NL txt)
  have : l ∈ (FileSorter.chunks List.isEmpty 10000 (Lines.getLines NL txt)).flatten := by
    rw [hperm.mem_iff, List.mem_filter]
    simp [hl, hne]
  obtain ⟨c, hc, _⟩ := List.mem_flatten.1 this
  exact List.length_pos_of_mem hc

/-- C143 does not hold when making the raw dataset throws: the sorted lines and what there is of the raw dataset stay. -/
theorem C143_left_violated (work : Work) (w : Str → Bool) (k : Disk) (name base source txt : Str) (hw : Writable w name base) (hnew : k (finalOf name) = none)
    (hsrc : k (csvOf base) = some source) (ho : work.organize source = (txt, .done)) (hraw : ∀ ls, IsSorted txt ls → (work.raw (Lines.putLines NL ls)).2 = false) :
    (statement work w k name base).1 = .throws ∧ ∃ ls, IsSorted txt ls ∧ after work w k name base (sortedOf base) = some (Lines.putLines NL ls) ∧
      after work w k name base (rawOf name) = some (work.raw (Lines.putLines NL ls)).1 := by
  have hwo : w (organizedOf base) = true := hw _ (Or.inl (Or.inl rfl))
  have hwr : w (rawOf name) = true := hw _ (Or.inl (Or.inr (Or.inr (Or.inr rfl))))
  have hk1 : play w k [Act.write (organizedOf base) txt] (organizedOf base) = some txt := by
    show (if w (organizedOf base) then put k (organizedOf base) (some txt) else k) _ = _
    rw [hwo, if_pos rfl]
    unfold put
    rw [if_pos rfl]
  obtain ⟨ls, hls, hsorted, _, _⟩ := sort_ok w _ name base txt hw hk1
  set k1 := play w k [Act.write (organizedOf base) txt] with hk1'
  set a2 := [Act.write (organizedOf base) txt] ++ sortActs w k1 (organizedOf base) (sortedOf base) ++ [.remove (organizedOf base)] with ha2
  have hs2 : play w k a2 (sortedOf base) = some (Lines.putLines NL ls) := by
    rw [ha2, play_append, play_append]
    show put (play w k1 _) (organizedOf base) none _ = _
    unfold put
    rw [if_neg (organized_sorted base).symm, hsorted]
  have hst : statement work w k name base = (.throws, a2 ++ [.write (rawOf name) (work.raw (Lines.putLines NL ls)).1]) := by
    unfold statement
    rw [hnew, if_neg (by simp), hsrc]
    dsimp only
    rw [ho]
    dsimp only
    rw [hwo, if_neg (by simp), ← hk1', ← ha2, hs2, Option.getD_some, if_pos (Or.inr (hraw ls hls))]
  have haft : after work w k name base = put (play w k a2) (rawOf name) (some (work.raw (Lines.putLines NL ls)).1) := by
    unfold after
    rw [hst, play_append]
    show (if w (rawOf name) then put _ (rawOf name) _ else _) = _
    rw [hwr, if_pos rfl]
  refine ⟨by rw [hst], ls, hls, ?_, ?_⟩
  · rw [haft]; unfold put; rw [if_neg (apart (last_sorted _) (last_raw _) (by decide)), hs2]
  · rw [haft]; unfold put; rw [if_pos rfl]

theorem parent_bare (base : Str) (h : (47 : UInt8) ∉ base) : parent (organizedOf base) = [] := by
  unfold parent
  have : (organizedOf base).reverse.dropWhile (· ≠ 47) = [] := by
    rw [List.dropWhile_eq_nil_iff]
    intro x hx
    rw [List.mem_reverse] at hx
    unfold organizedOf at hx
    rcases List.mem_append.1 hx with hx | hx
    · have : x ≠ 47 := by rintro rfl; exact h hx
      simpa using this
    · have h2 : ∀ y ∈ text ".given-expected.csv", decide (y ≠ 47) = true := by decide +kernel
      exact h2 x hx
  rw [this]
  rfl

/-- C143 does not hold for a source named without its folder if the root folder cannot be written: success is reported for a dataset without any of the lines. -/
theorem C143_bare_violated (work : Work) (w : Str → Bool) (k : Disk) (name base source txt : Str) (hbase : (47 : UInt8) ∉ base)
    (hw : ∀ q, q = organizedOf base ∨ q = sortedOf base ∨ q = rawOf name ∨ q = finalOf name → w q = true)
    (hroot : ∀ i, w (text "/chunk_" ++ dec i ++ text ".txt") = false ∧ k (text "/chunk_" ++ dec i ++ text ".txt") = none) (hnew : k (finalOf name) = none)
    (hsrc : k (csvOf base) = some source) (ho : work.organize source = (txt, .done)) (hraw : (work.raw []).2 = true) :
    (statement work w k name base).1 = .created ∧ after work w k name base (finalOf name) = some (work.final (work.raw []).1) := by
  have hwo : w (organizedOf base) = true := hw _ (Or.inl rfl)
  have hws : w (sortedOf base) = true := hw _ (Or.inr (Or.inl rfl))
  have hwr : w (rawOf name) = true := hw _ (Or.inr (Or.inr (Or.inl rfl)))
  have hwf : w (finalOf name) = true := hw _ (Or.inr (Or.inr (Or.inr rfl)))
  have hpar := parent_bare base hbase
  set k1 := play w k [Act.write (organizedOf base) txt] with hk1'
  have hopen : ∀ n (k2 : Disk), (∀ i, k2 (chunkPath [] i) = none) → openChunks k2 [] (List.range n) = [] := by
    intro n k2 h2
    cases n with
    | zero => rfl
    | succ n =>
      rw [List.range_succ_eq_map, openChunks, h2 0]
  have hwrites : ∀ (l : List (List Str × Nat)) (k2 : Disk), (∀ i, k2 (chunkPath [] i) = none) →
      ∀ i, play w k2 (l.map fun c => .write (chunkPath [] c.2) (Lines.putLines NL c.1)) (chunkPath [] i) = none := by
    intro l
    induction l with
    | nil => intro k2 h2 i; exact h2 i
    | cons c l ih =>
      intro k2 h2 i
      rw [List.map_cons]
      show play w (if w (chunkPath [] c.2) then _ else k2) _ _ = none
      rw [show w (chunkPath [] c.2) = false from (hroot c.2).1, if_neg (by simp)]
      exact ih k2 h2 i
  have hk1c : ∀ i, k1 (chunkPath [] i) = none := by
    intro i
    rw [hk1', play_other]
    · exact (hroot i).2
    · intro a ha
      rw [List.mem_singleton] at ha
      subst ha
      exact apart (last_chunk _ i) (last_organized _) (by decide)
  have hsorted : play w k1 (sortActs w k1 (organizedOf base) (sortedOf base)) (sortedOf base) = some [] := by
    unfold sortActs
    dsimp only
    rw [hpar, hopen _ _ (hwrites _ k1 hk1c), play_append]
    show play w (if w (sortedOf base) then put _ (sortedOf base) (some []) else _) _ _ = _
    rw [hws, if_pos rfl, play_other]
    · unfold put; rw [if_pos rfl]
    · intro a ha
      obtain ⟨i, _, rfl⟩ := List.mem_map.1 ha
      exact apart (last_sorted base) (last_chunk _ i) (by decide)
  set a2 := [Act.write (organizedOf base) txt] ++ sortActs w k1 (organizedOf base) (sortedOf base) ++ [.remove (organizedOf base)] with ha2
  have hs2 : play w k a2 (sortedOf base) = some [] := by
    rw [ha2, play_append, play_append]
    show put (play w k1 _) (organizedOf base) none _ = _
    unfold put
    rw [if_neg (organized_sorted base).symm, hsorted]
  have hp3 : play w k (a2 ++ [.write (rawOf name) (work.raw []).1]) = put (play w k a2) (rawOf name) (some (work.raw []).1) := by
    rw [play_append]
    show (if w (rawOf name) then put _ (rawOf name) _ else _) = _
    rw [hwr, if_pos rfl]
  have hrs : rawOf name ≠ sortedOf base := apart (last_raw _) (last_sorted _) (by decide)
  have h4 : play w k (a2 ++ [.write (rawOf name) (work.raw []).1] ++ [.remove (sortedOf base)]) (rawOf name) = some (work.raw []).1 := by
    rw [play_append, hp3]
    show put _ (sortedOf base) none _ = _
    unfold put
    rw [if_neg hrs, if_pos rfl]
  have hst : statement work w k name base = (.created, a2 ++ [.write (rawOf name) (work.raw []).1] ++
      [.remove (sortedOf base), .write (finalOf name) (work.final (work.raw []).1), .remove (rawOf name)]) := by
    unfold statement
    rw [hnew, if_neg (by simp), hsrc]
    dsimp only
    rw [ho]
    dsimp only
    rw [hwo, if_neg (by simp), ← hk1', ← ha2, hs2, Option.getD_some, hwr, if_neg (by rw [hraw]; simp), if_neg, h4, Option.getD_some]
    rw [hp3]
    unfold put
    rw [if_neg hrs.symm, hs2]
    simp
  refine ⟨by rw [hst], ?_⟩
  unfold after
  rw [hst, play_append]
  show put (if w (finalOf name) then put _ (finalOf name) (some (work.final (work.raw []).1)) else _) (rawOf name) none _ = _
  rw [hwf, if_pos rfl]
  unfold put
  rw [if_neg (final_raw _ _), if_pos rfl]

/-! ### The hypotheses can be met -/

/-- Work that copies. -/
def copying : Work := ⟨fun s => (s, .done), fun s => (s, true), id⟩

/-- A disk with the lines `b`, `a`, nothing, `b` in `d/x.csv`. -/
def small : Disk := put (fun _ => none) (csvOf (text "d/x")) (some (text "b\na\n\nb\n"))

/-- The dataset is made of `a` and `b`; the files on the way are gone, the source is there. -/
example : (statement copying (fun _ => true) small (text "n") (text "d/x")).1 = .created ∧
    after copying (fun _ => true) small (text "n") (text "d/x") (finalOf (text "n")) = some (text "a\nb\n") ∧
    after copying (fun _ => true) small (text "n") (text "d/x") (text "d/chunk_0.txt") = none ∧
    after copying (fun _ => true) small (text "n") (text "d/x") (csvOf (text "d/x")) = some (text "b\na\n\nb\n") := by
  decide +kernel

example : small (finalOf (text "n")) = none ∧ small (csvOf (text "d/x")) = some (text "b\na\n\nb\n") ∧
    copying.organize (text "b\na\n\nb\n") = (text "b\na\n\nb\n", .done) ∧ Writable (fun _ => true) (text "n") (text "d/x") ∧
    ∀ ls, IsSorted (text "b\na\n\nb\n") ls → (copying.raw (Lines.putLines NL ls)).2 = true :=
  ⟨by decide +kernel, by decide +kernel, rfl, fun _ _ => rfl, fun _ _ => rfl⟩

/-- `x.csv` in a folder where everything can be written, with a root folder where nothing can. -/
example : (statement copying (fun q => q.head? ≠ some 47) (put (fun _ => none) (csvOf (text "x")) (some (text "b\na\n"))) (text "n") (text "x")).1 = .created ∧
    after copying (fun q => q.head? ≠ some 47) (put (fun _ => none) (csvOf (text "x")) (some (text "b\na\n"))) (text "n") (text "x") (finalOf (text "n")) = some [] := by
  decide +kernel

end Verif.DatasetFiles
