import Verif.Lemmas.BinaryDataset
import Verif.Props.C07_LruCache
import Mathlib.Data.List.Forall2

/-!
C24–C28. Binary dataset files and saved tensors.

* C24: the header round trip.
* C25: row count and random access to rows.
* C26: the de-duplicating writer.
* C27: renormalization of columns while reading.
* C28: tensor save/load.
-/
namespace Verif.BinaryDataset
open Verif Bytes

/-! ### C24 -/

/-- Bytes of one value of this column per row, counted without wrap-around. -/
def natSize (m : Meta) : Nat := m.rows.toNat * m.cols.toNat * m.chans.toNat * 4

/-- Bytes per row of a schema. -/
def natRow (given expected : List Meta) : Nat := ((given ++ expected).map natSize).sum

/-- A schema the 64-bit fields can describe: counts and lengths fit, and a row has between 1 and 2^64 - 1 bytes. -/
structure Schema (given expected : List Meta) : Prop where
  nonempty : given ≠ []
  ng : given.length < 2 ^ 64
  ne : expected.length < 2 ^ 64
  fits : ∀ m ∈ given ++ expected, m.Fits
  pos : 0 < natRow given expected
  small : natRow given expected < 2 ^ 64

theorem metaSize_toNat (m : Meta) : metaSize m = BitVec.ofNat 64 (natSize m) := by
  apply BitVec.eq_of_toNat_eq
  simp [metaSize, natSize, BitVec.toNat_mul, Nat.mul_mod]

theorem foldl_size (l : List Meta) (n : Nat) :
    l.foldl (fun acc m => acc + metaSize m) (BitVec.ofNat 64 n) = BitVec.ofNat 64 (n + (l.map natSize).sum) := by
  induction l generalizing n with
  | nil => simp
  | cons m l ih =>
    rw [List.foldl_cons, metaSize_toNat, ← BitVec.ofNat_add, ih, List.map_cons, List.sum_cons, Nat.add_assoc]

theorem open_header {given expected : List Meta} (hs : Schema given expected) (header rest : List Byte)
    (hw : writeHeader given expected = some header) :
    openReader (header ++ rest) = some ⟨header ++ rest, given, expected, header.length,
      BitVec.ofNat 64 (natRow given expected), rest.length / natRow given expected⟩ := by
  unfold writeHeader at hw
  have h0 : given.length ≠ 0 := by have := hs.nonempty; rwa [Ne, List.length_eq_zero_iff]
  rw [if_neg h0, Option.some.injEq] at hw
  have hg := reads_many readMeta given id writeMeta (fun m hm => reads_meta m (hs.fits m (by simp [hm])))
  have he := reads_many readMeta expected id writeMeta (fun m hm => reads_meta m (hs.fits m (by simp [hm])))
  rw [List.map_id] at hg he
  unfold openReader
  have hf : (given ++ expected).foldl (fun acc m => acc + metaSize m) 0#64 = BitVec.ofNat 64 (natRow given expected) := by
    have := foldl_size (given ++ expected) 0
    simpa [natRow] using this
  have hnz : BitVec.ofNat 64 (natRow given expected) ≠ 0#64 := by
    intro e
    have := congrArg BitVec.toNat e
    rw [toNat_ofNat64 hs.small] at this
    have hp := hs.pos
    simp at this; omega
  conv_lhs =>
    enter [1]
    rw [← hw, List.append_assoc]
  rw [bind_read (reads_raw64 _)]; dsimp only
  rw [toNat_ofNat64 hs.ng, List.append_assoc, bind_read hg]; dsimp only
  rw [List.append_assoc, bind_read (reads_raw64 _)]; dsimp only
  rw [toNat_ofNat64 hs.ne, bind_read he]; dsimp only
  rw [hf, if_neg hnz, toNat_ofNat64 hs.small, List.length_append, Nat.add_sub_cancel]
  rw [Nat.add_sub_cancel_left]

/-- C24. A file that starts with the header written for `given`/`expected` opens as a reader that has exactly those columns: every
field of every column description is recovered, whatever data follows. -/
theorem C24_header {given expected : List Meta} (hs : Schema given expected) (rest : List Byte) :
    ∃ header r, writeHeader given expected = some header ∧ openReader (header ++ rest) = some r ∧
      r.given = given ∧ r.expected = expected := by
  have h0 : given.length ≠ 0 := by have := hs.nonempty; rwa [Ne, List.length_eq_zero_iff]
  have hw : ∃ h, writeHeader given expected = some h := ⟨_, by unfold writeHeader; rw [if_neg h0]⟩
  obtain ⟨h, hw⟩ := hw
  exact ⟨h, _, hw, open_header hs h rest hw, rfl, rfl⟩

/-- C24. The header determines the columns: two schemas with the same header bytes are the same schema. -/
theorem C24_header_injective {g e g' e' : List Meta} (hs : Schema g e) (hs' : Schema g' e') (h : List Byte)
    (hw : writeHeader g e = some h) (hw' : writeHeader g' e' = some h) : g = g' ∧ e = e' := by
  have h1 := open_header hs h [] hw
  rw [open_header hs' h [] hw'] at h1
  simp only [Option.some.injEq, Reader.mk.injEq] at h1
  exact ⟨h1.2.1.symm, h1.2.2.1.symm⟩

/-- C24. A schema without given columns is rejected when writing. -/
theorem C24_needs_given (expected : List Meta) : writeHeader [] expected = none := rfl

/-- A concrete column: one number. -/
def exNumber : Meta := ⟨78#8, false, 0#32, 0x3f800000#32, true, 0#32, 0x41200000#32, 1#64, 1#64, 1#64, 1#64, [], [120#8]⟩
/-- A concrete label column with two labels. -/
def exLabel : Meta :=
  ⟨76#8, false, 0#32, 0x3f800000#32, false, 0#32, 0x41200000#32, 1#64, 1#64, 2#64, 1#64, [[97#8], [98#8, 99#8]], []⟩

theorem exSchema : Schema [exNumber] [exLabel] where
  nonempty := by simp
  ng := by simp
  ne := by simp
  fits := by
    intro m hm
    simp only [List.cons_append, List.nil_append, List.mem_cons, List.not_mem_nil, or_false] at hm
    rcases hm with rfl | rfl <;> simp [Meta.Fits, exNumber, exLabel]
  pos := by decide
  small := by decide

example : ∃ header r, writeHeader [exNumber] [exLabel] = some header ∧ openReader (header ++ []) = some r ∧
      r.given = [exNumber] ∧ r.expected = [exLabel] := C24_header exSchema []

/-- A dataset whose columns hold no values at all cannot be opened: the reader divides by a row size of zero. -/
theorem C24_empty_columns_violated : ∃ (m : Meta) (header : List Byte), m.Fits ∧ writeHeader [m] [] = some header ∧
    openReader header = none :=
  ⟨⟨78#8, false, 0#32, 0#32, true, 0#32, 0#32, 1#64, 1#64, 0#64, 1#64, [], []⟩, _, by simp [Meta.Fits], rfl, by rfl⟩

/-! ### C25 -/

/-- The tensor has the shape the column description announces. -/
def Conforms (m : Meta) (t : Tensor (BitVec 32)) : Prop :=
  t.rows = m.rows.toNat ∧ t.cols = m.cols.toNat ∧ t.chans = m.chans.toNat

/-- A row that matches the schema column by column. -/
def RowOk (given expected : List Meta) (r : Row) : Prop :=
  List.Forall₂ Conforms given r.1 ∧ List.Forall₂ Conforms expected r.2

/-- Values a column stores without loss: anything for numbers and text, 0 and 1 for labels ('L'), the 256 levels k/255 for images ('I'). -/
def Storable (purpose : Byte) (v : BitVec 32) : Prop :=
  (purpose ≠ 73#8 ∧ purpose ≠ 76#8) ∨ (purpose = 76#8 ∧ (v = 0#32 ∨ v = 0x3F800000#32)) ∨
    (purpose = 73#8 ∧ ∃ k : Nat, k < 256 ∧ v = FloatArith.div255 k)

/-- Column data read back shows the values that were written. -/
def Recovers (m : Meta) (t : Tensor (BitVec 32)) (d : Data) : Prop :=
  (0 < t.rows ∧ 0 < t.chans ∧ ∀ r c k, r < t.rows → c < t.cols → k < t.chans → Storable m.purpose (t.get r c k)) →
    Tensor.Same d.tensor t

theorem pixel_levels : ∀ k : Fin 256, pixelConv (FloatArith.div255 k.val) = FloatArith.div255 k.val := by decide +kernel

theorem conv_storable (p : Byte) (v : BitVec 32) (h : Storable p v) : conv p v = v := by
  rcases h with ⟨h1, h2⟩ | ⟨rfl, h⟩ | ⟨rfl, k, hk, rfl⟩
  · simp [conv, h1, h2]
  · have e : conv 76#8 = quarterConv := by simp [conv]
    rw [e]
    rcases h with rfl | rfl <;> decide +kernel
  · have e : conv 73#8 = pixelConv := by simp [conv]
    rw [e]
    exact pixel_levels ⟨k, hk⟩

theorem reads_column (m : Meta) (t : Tensor (BitVec 32)) (h : Conforms m t) :
    Reads (loadColumn m) (dataOf (conv m.purpose) t) (saveBody t) := by
  unfold loadColumn
  rw [← h.1, ← h.2.1, ← h.2.2]
  exact reads_body _ t

theorem reads_columns {ms : List Meta} {ts : List (Tensor (BitVec 32))} (h : List.Forall₂ Conforms ms ts) :
    ∃ ds, Reads (loadColumns ms) ds (ts.flatMap saveBody) ∧ ds = List.zipWith (fun m t => dataOf (conv m.purpose) t) ms ts := by
  induction h with
  | nil => exact ⟨[], fun rest => rfl, rfl⟩
  | @cons m t ms ts h1 h2 ih =>
    obtain ⟨ds, hd, e⟩ := ih
    refine ⟨dataOf (conv m.purpose) t :: ds, ?_, by simp [e]⟩
    intro rest
    rw [List.flatMap_cons, List.append_assoc]
    show (loadColumn m _).bind _ = _
    rw [bind_read (reads_column m t h1)]; dsimp only
    rw [hd rest]; rfl

theorem length_columns {ms : List Meta} {ts : List (Tensor (BitVec 32))} (h : List.Forall₂ Conforms ms ts) :
    (ts.flatMap saveBody).length = (ms.map natSize).sum := by
  induction h with
  | nil => rfl
  | @cons m t ms ts h1 h2 ih =>
    rw [List.flatMap_cons, List.length_append, ih, length_saveBody, List.map_cons, List.sum_cons, natSize, h1.1, h1.2.1, h1.2.2]

theorem length_row {given expected : List Meta} {r : Row} (h : RowOk given expected r) :
    (rowBytes r).length = natRow given expected := by
  rw [rowBytes, List.length_append, length_columns h.1, length_columns h.2, natRow, List.map_append, List.sum_append]

theorem length_rows {given expected : List Meta} {rows : List Row} (h : ∀ r ∈ rows, RowOk given expected r) :
    (rows.flatMap rowBytes).length = rows.length * natRow given expected :=
  length_flatMap_const _ _ _ (fun r hr => length_row (h r hr))

theorem drop_rows {given expected : List Meta} {rows : List Row} (h : ∀ r ∈ rows, RowOk given expected r) (i : Nat)
    (hi : i < rows.length) :
    (rows.flatMap rowBytes).drop (i * natRow given expected) = rowBytes rows[i] ++ (rows.drop (i + 1)).flatMap rowBytes := by
  have e : rows = rows.take i ++ rows[i] :: rows.drop (i + 1) := by simp
  have hl : ((rows.take i).flatMap rowBytes).length = i * natRow given expected := by
    rw [length_rows (fun r hr => h r (List.mem_of_mem_take hr)), List.length_take, Nat.min_eq_left (by omega)]
  conv_lhs => rw [e, List.flatMap_append, List.flatMap_cons, ← hl, List.drop_left]

theorem forall2_zip {ms : List Meta} {ts : List (Tensor (BitVec 32))} (h : List.Forall₂ Conforms ms ts) :
    List.Forall₂ (fun (p : Meta × Tensor (BitVec 32)) d => Recovers p.1 p.2 d) (ms.zip ts)
      (List.zipWith (fun m t => dataOf (conv m.purpose) t) ms ts) := by
  induction h with
  | nil => exact List.Forall₂.nil
  | @cons m t ms ts h1 h2 ih =>
    refine List.Forall₂.cons ?_ ih
    intro ⟨hr, hk, hst⟩
    refine (dataOf_same _ t hk hr).trans ⟨rfl, rfl, rfl, ?_⟩
    intro r c k h1 h2 h3
    exact conv_storable _ _ (hst r c k h1 h2 h3)

/-- C25. For every schema and every sequence of rows matching it, the file opens, the reader counts exactly the rows written, every row
index below the count gives back that row (every storable column has the same shape and the same values), and every other index is
rejected. -/
theorem C25_rows {given expected : List Meta} (hs : Schema given expected) (rows : List Row)
    (hr : ∀ r ∈ rows, RowOk given expected r) :
    ∃ file reader, writeFile given expected rows = some file ∧ openReader file = some reader ∧
      reader.numberOfRows = rows.length ∧
      (∀ i, rows.length ≤ i → readRow reader i = none) ∧
      ∀ i (hi : i < rows.length), ∃ g e, readRow reader i = some (g, e) ∧
        List.Forall₂ (fun (p : Meta × Tensor (BitVec 32)) d => Recovers p.1 p.2 d) (given.zip rows[i].1) g ∧
        List.Forall₂ (fun (p : Meta × Tensor (BitVec 32)) d => Recovers p.1 p.2 d) (expected.zip rows[i].2) e := by
  have h0 : given.length ≠ 0 := by have := hs.nonempty; rwa [Ne, List.length_eq_zero_iff]
  obtain ⟨header, hw⟩ : ∃ h, writeHeader given expected = some h := ⟨_, by unfold writeHeader; rw [if_neg h0]⟩
  have hop := open_header hs header (rows.flatMap rowBytes) hw
  have hcount : (rows.flatMap rowBytes).length / natRow given expected = rows.length := by
    rw [length_rows hr]; exact Nat.mul_div_cancel _ hs.pos
  rw [hcount] at hop
  refine ⟨_, _, ?_, hop, rfl, ?_, ?_⟩
  · rw [writeFile, hw]; rfl
  · intro i hi
    rw [readRow, if_pos hi]
  · intro i hi
    obtain ⟨g, hg, hge⟩ := reads_columns (hr rows[i] (List.getElem_mem hi)).1
    obtain ⟨e, he, hee⟩ := reads_columns (hr rows[i] (List.getElem_mem hi)).2
    refine ⟨g, e, ?_, ?_, ?_⟩
    · rw [readRow, if_neg (by simpa using hi)]
      dsimp only
      rw [toNat_ofNat64 hs.small, List.drop_append, List.drop_eq_nil_of_le (by omega), List.nil_append, Nat.add_sub_cancel_left,
        drop_rows hr i hi, rowBytes, List.append_assoc, bind_read hg]
      dsimp only
      rw [he]; rfl
    · rw [hge]; exact forall2_zip (hr rows[i] (List.getElem_mem hi)).1
    · rw [hee]; exact forall2_zip (hr rows[i] (List.getElem_mem hi)).2

/-- A row of the example schema. -/
def exRow (x : BitVec 32) : Row := ([⟨1, 1, 1, fun _ _ _ => x⟩], [⟨1, 2, 1, fun _ c _ => if c = 0 then 0x3F800000#32 else 0#32⟩])

theorem exRow_ok (x : BitVec 32) : RowOk [exNumber] [exLabel] (exRow x) :=
  ⟨List.Forall₂.cons ⟨rfl, rfl, rfl⟩ List.Forall₂.nil, List.Forall₂.cons ⟨rfl, rfl, rfl⟩ List.Forall₂.nil⟩

example : ∃ file reader, writeFile [exNumber] [exLabel] [exRow 7#32, exRow 9#32] = some file ∧ openReader file = some reader ∧
    reader.numberOfRows = 2 := by
  obtain ⟨f, r, h1, h2, h3, _⟩ := C25_rows exSchema [exRow 7#32, exRow 9#32]
    (by intro r hr; simp only [List.mem_cons, List.not_mem_nil, or_false] at hr; rcases hr with rfl | rfl <;> exact exRow_ok _)
  exact ⟨f, r, h1, h2, h3⟩

/-- C25. Outside the storable values, image and label columns do change what they store: 0.5 in an image column comes back as 127/255,
and 0.3 in a label column as 0.3125. -/
theorem C25_lossy_columns : conv 73#8 0x3F000000#32 = FloatArith.div255 127 ∧ conv 76#8 0x3E99999A#32 = 0x3EA00000#32 := by
  decide +kernel

/-! ### C26 -/

/-- Independent description of "skip what was stored recently": keep a row unless its key equals that of one of the last `c` kept rows.
`kept` lists the keys kept so far, newest first. -/
def keepRecent {R : Type} (c : Nat) (key : R → BitVec 64) (kept : List (BitVec 64)) : List R → List R
  | [] => []
  | r :: rs => if key r ∈ kept.take c then keepRecent c key kept rs else r :: keepRecent c key (key r :: kept) rs

theorem dedup_refines {R : Type} (c : Nat) (hc : 0 < c) (hash : R → BitVec 64) (rows : List R) :
    ∀ (s : LruCache.State (BitVec 64)) (done : List (BitVec 64)), LruCache.Inv c s done →
      dedupRows c hash s rows = some (keepRecent c hash done rows) := by
  induction rows with
  | nil => intro s done _; rfl
  | cons r rs ih =>
    intro s done hinv
    have hmem : hash r ∈ s.map ↔ hash r ∈ done.take c := by rw [hinv.2.2.2, hinv.1]
    unfold dedupRows dedupRow keepRecent LruCache.contains
    by_cases h : hash r ∈ s.map
    · simp only [h, decide_true, if_true, Option.bind_some, ih s done hinv, Option.map_some, Bool.false_eq_true, if_false,
        hmem.mp h]
    · obtain ⟨s', e, hinv'⟩ := LruCache.inv_insert hc hinv h
      simp only [h, decide_false, Bool.false_eq_true, if_false, e, Option.map_some, Option.bind_some, ih s' _ hinv',
        if_true]
      rw [if_neg (fun hh => h (hmem.mpr hh))]

/-- C26. A de-duplicating writer with a cache of any positive size stores, in order, exactly the rows whose hash differs from the hashes
of the last `c` rows stored; it never fails. -/
theorem C26_stores {R : Type} (c : Nat) (hc : 0 < c) (hash : R → BitVec 64) (rows : List R) :
    dedupRows c hash LruCache.init rows = some (keepRecent c hash [] rows) :=
  dedup_refines c hc hash rows _ _ ⟨by simp [LruCache.init], by simp [LruCache.init], by simp [LruCache.init], by simp [LruCache.init]⟩

theorem keepRecent_sublist {R : Type} (c : Nat) (key : R → BitVec 64) (rows : List R) :
    ∀ kept, (keepRecent c key kept rows).Sublist rows := by
  induction rows with
  | nil => intro kept; exact List.Sublist.refl _
  | cons r rs ih =>
    intro kept
    unfold keepRecent
    split
    · exact (ih kept).cons r
    · exact (ih _).cons_cons r

/-- C26. The stored rows are a subsequence of the rows offered. -/
theorem C26_subsequence {R : Type} (c : Nat) (hc : 0 < c) (hash : R → BitVec 64) (rows out : List R)
    (h : dedupRows c hash LruCache.init rows = some out) : out.Sublist rows := by
  rw [C26_stores c hc, Option.some.injEq] at h
  rw [← h]; exact keepRecent_sublist c hash rows []

theorem keepRecent_append {R : Type} (c : Nat) (key : R → BitVec 64) (pre : List R) :
    ∀ (kept : List (BitVec 64)) (post : List R), ∃ kept', keepRecent c key kept (pre ++ post) =
      keepRecent c key kept pre ++ keepRecent c key kept' post ∧ kept' = ((keepRecent c key kept pre).map key).reverse ++ kept := by
  induction pre with
  | nil => intro kept post; exact ⟨kept, by simp [keepRecent], by simp [keepRecent]⟩
  | cons r rs ih =>
    intro kept post
    rw [List.cons_append, keepRecent, keepRecent]
    split
    · exact ih kept post
    · obtain ⟨k', h1, h2⟩ := ih (key r :: kept) post
      exact ⟨k', by rw [h1]; rfl, by rw [h2]; simp⟩

/-- C26. A row is dropped only if a row with the same hash is among the last `c` rows stored before it; otherwise it is stored. Here
`stored` is what had been stored when the row arrived. -/
theorem C26_drop_iff {R : Type} (c : Nat) (hc : 0 < c) (hash : R → BitVec 64) (before : List R) (r : R) (stored out : List R)
    (h1 : dedupRows c hash LruCache.init before = some stored) (h2 : dedupRows c hash LruCache.init (before ++ [r]) = some out) :
    out = if hash r ∈ (stored.reverse.map hash).take c then stored else stored ++ [r] := by
  rw [C26_stores c hc, Option.some.injEq] at h1 h2
  obtain ⟨k', e1, e2⟩ := keepRecent_append c hash before [] [r]
  rw [← h2, e1, h1]
  rw [h1, List.append_nil, ← List.map_reverse] at e2
  rw [keepRecent, e2]
  split
  · simp [keepRecent]
  · simp [keepRecent]

/-- C26. A row whose hash has not occurred before is always stored. -/
theorem C26_new_row_stored {R : Type} (c : Nat) (hc : 0 < c) (hash : R → BitVec 64) (before after : List R) (r : R) (out : List R)
    (hnew : ∀ b ∈ before, hash b ≠ hash r) (h : dedupRows c hash LruCache.init (before ++ r :: after) = some out) : r ∈ out := by
  rw [C26_stores c hc, Option.some.injEq] at h
  obtain ⟨k', e1, e2⟩ := keepRecent_append c hash before [] (r :: after)
  rw [← h, e1]
  have : hash r ∉ k'.take c := by
    intro hm
    have hm := List.mem_of_mem_take hm
    rw [e2, List.append_nil, List.mem_reverse, List.mem_map] at hm
    obtain ⟨b, hb, e⟩ := hm
    exact hnew b ((keepRecent_sublist c hash before []).subset hb) e
  rw [keepRecent, if_neg this]
  simp

example : dedupRows 2 (fun n : Nat => BitVec.ofNat 64 n) LruCache.init [1, 2, 1, 3, 1] = some [1, 2, 3, 1] := by decide +kernel

/-- C26 as a user would state it (rows with *new given values* are always stored) is false whatever string hash is used: given values are
hashed through their text with 15 decimals, so two different tiny numbers count as duplicates and the second row is dropped. -/
theorem C26_new_values_dropped_violated (h : List Tok → BitVec 64) : ∃ a b : Tensor (BitVec 32),
    a.get 0 0 0 ≠ b.get 0 0 0 ∧ (a.rows, a.cols, a.chans) = (1, 1, 1) ∧ (b.rows, b.cols, b.chans) = (1, 1, 1) ∧
    (FloatBits.isFinite (a.get 0 0 0) = true ∧ FloatBits.isFinite (b.get 0 0 0) = true) ∧
    dedupRows 100000 (fun r => givenHash (fun t => h (printTensor t)) r) LruCache.init [[a], [b]] = some [[a]] := by
  refine ⟨⟨1, 1, 1, fun _ _ _ => 0x1#32⟩, ⟨1, 1, 1, fun _ _ _ => 0x24000000#32⟩, by decide, rfl, rfl, by decide, ?_⟩
  rw [C26_stores _ (by decide)]
  have : printTensor ⟨1, 1, 1, fun _ _ _ => 0x1#32⟩ = printTensor ⟨1, 1, 1, fun _ _ _ => 0x24000000#32⟩ := by decide +kernel
  simp [keepRecent, givenHash, this]

/-! ### C27 -/

/-- C27, the intended behaviour: every column is re-expressed with the target description of the *same* column. -/
def renormSpec {T : Type} (renorm : T → Meta → Meta → T) (target : List Meta) (cols : List (Meta × T)) : List T :=
  if target = [] then cols.map (·.2) else List.zipWith (fun t (p : Meta × T) => renorm p.2 p.1 t) target cols

/-- C27 holds for datasets with a single column on that side (and when no renormalization is requested), and more generally when all target
columns have the same description. Missing: more than one column with different targets, see `C27_renormalize_violated`. -/
theorem C27_renormalize_partial {T : Type} (renorm : T → Meta → Meta → T) (target : List Meta) (cols : List (Meta × T))
    (hlen : target = [] ∨ target.length = cols.length) (hsame : ∀ a ∈ target, ∀ b ∈ target, a = b) :
    renormColumns renorm target cols = renormSpec renorm target cols := by
  cases target with
  | nil => simp [renormColumns, renormSpec]
  | cons t0 ts =>
    have hl : (t0 :: ts).length = cols.length := by simpa using hlen
    simp only [renormColumns, renormSpec, List.cons_ne_nil, if_false]
    apply List.ext_getElem
    · simp only [List.length_map, List.length_zipWith, hl, Nat.min_self]
    · intro i h1 h2
      have hi : i < (t0 :: ts).length := by rw [hl]; simpa using h1
      simp only [List.getElem_map, List.getElem_zipWith]
      exact congrArg _ (hsame t0 (by simp) ((t0 :: ts)[i]) (List.getElem_mem hi))

/-- A target description that differs from `exNumber`. -/
def exOther : Meta := ⟨78#8, false, 0#32, 0x3f800000#32, true, 0#32, 1#32, 1#64, 1#64, 1#64, 1#64, [], [120#8]⟩

/-- C27 fails for a dataset with two columns: the second column is re-expressed with the constants of the first target column. -/
theorem C27_renormalize_violated : ∃ (target : List Meta) (cols : List (Meta × Nat)) (renorm : Nat → Meta → Meta → Nat),
    target.length = cols.length ∧ renormColumns renorm target cols ≠ renormSpec renorm target cols :=
  ⟨[exNumber, exOther], [(exNumber, 5), (exNumber, 6)], fun v _ t => v * t.max.toNat, rfl, by decide⟩

example : renormColumns (fun v _ t => v * t.max.toNat) [exNumber] [(exNumber, 5)] = [5 * 0x41200000] := by decide

/-! ### C28 -/

/-- C28. Saving any tensor and loading it back as a full tensor gives the same shape and the same bits everywhere, and consumes
exactly the bytes written (so tensors can be stored one after another in one file). -/
theorem C28_save_load (t : Tensor (BitVec 32)) (h1 : t.chans < 2 ^ 64) (h2 : t.rows < 2 ^ 64) (h3 : t.cols < 2 ^ 64)
    (hc : 0 < t.chans) (hr : 0 < t.rows) (rest : List Byte) :
    ∃ d, load id (save t ++ rest) = some (d, rest) ∧ Tensor.Same d.tensor t :=
  ⟨_, reads_save id t h1 h2 h3 rest, dataOf_same id t hc hr⟩

/-- C28. The same for data that came from a full tensor, including those without any element: saving stored (rectangular) data and
loading it gives the same stored data. -/
theorem C28_stored_data (d : Data) (h1 : d.length < 2 ^ 64) (h2 : d.tensor.rows < 2 ^ 64) (h3 : d.tensor.cols < 2 ^ 64)
    (hrect : ∀ ch ∈ d, ch.length = d.tensor.rows ∧ ∀ row ∈ ch, row.length = d.tensor.cols) (rest : List Byte) :
    load id (save d.tensor ++ rest) = some (d, rest) := by
  rw [reads_save id d.tensor h1 h2 h3 rest]
  congr 2
  unfold dataOf
  apply List.ext_getElem
  · simp [Data.tensor]
  · intro k hk hk'
    simp only [List.getElem_map, List.getElem_range]
    have hrow := hrect d[k] (List.getElem_mem hk')
    apply List.ext_getElem
    · simp [hrow.1]
    · intro r hr hr'
      simp only [List.getElem_map, List.getElem_range]
      have hcol := hrow.2 (d[k][r]) (List.getElem_mem hr')
      apply List.ext_getElem
      · simp [hcol]
      · intro c hc hc'
        simp [Data.tensor, List.getElem?_eq_getElem hk', List.getElem?_eq_getElem hr', List.getElem?_eq_getElem hc']

/-- C28. The saved file has 24 + 4·size bytes. -/
theorem C28_length (t : Tensor (BitVec 32)) : (save t).length = 24 + 4 * t.size := by
  have : ∀ x, (write64 x).length = 8 := fun _ => rfl
  simp only [save, List.length_append, this, length_saveBody, Tensor.size]
  omega

example : ∃ d, load id (save ⟨2, 3, 2, fun r c k => BitVec.ofNat 32 (r + c + k)⟩ ++ []) = some (d, []) ∧
    Tensor.Same d.tensor ⟨2, 3, 2, fun r c k => BitVec.ofNat 32 (r + c + k)⟩ :=
  C28_save_load _ (by decide) (by decide) (by decide) (by decide) (by decide) []

end Verif.BinaryDataset
