import Verif.Spec.LoadDelimited
import Verif.Props.C15_Csv
import Verif.Props.C51_C52_Encoders
import Verif.Props.C119_C120_Execute

/-!
# C147: loading a delimited text file

The dataset in memory has one pair for every record, in the order of the file, and its tensors say what the columns of the record say, whether the expected columns come first
or last.

Recorded disagreements: a path that cannot be opened is loaded as an empty dataset (`C147_missing_violated`); a record with too few columns, for example a blank line at the end, is
undefined behaviour (`C147_short_violated`, `C147_blank_violated`).
-/
namespace Verif.LoadDelimited
open Verif.TextCodec (Str)
open Verif.Encoders (Out)
open Verif.LineReader (Useful allLines)
open Verif.TextCodec (NL)
open Verif.Csv (Safe writeRecord Q)
variable {F : Type} [Field F]

/-! ### Encoders -/

omit [Field F] in
theorem mapM_get {A B : Type} (f : A → Option B) : ∀ (l : List A) (m : List B), l.mapM f = some m → m.length = l.length ∧ ∀ (i : Nat) (a : A), l[i]? = some a → ∃ b, m[i]? = some b ∧ f a = some b
  | [], m, h => by
    cases h
    exact ⟨rfl, by simp⟩
  | a :: l, m, h => by
    rw [List.mapM_cons] at h
    cases ha : f a with
    | none => rw [ha] at h; cases h
    | some b =>
      cases hl : l.mapM f with
      | none => rw [ha, hl] at h; cases h
      | some m' =>
        rw [ha, hl] at h
        cases h
        obtain ⟨h1, h2⟩ := mapM_get f l m' hl
        refine ⟨by simp [h1], fun i a' hi => ?_⟩
        cases i with
        | zero => simp at hi; subst hi; exact ⟨b, rfl, ha⟩
        | succ i => exact h2 i a' (by simpa using hi)

theorem category_says (lib : Library F) (trim : Bool) (labels words : List Str) (s : Shape) (t : Tensor F)
    (h : (Encoder.category labels).encode lib words s trim = .ok t) : Says lib trim (.category labels) words s t := by
  simp only [Encoder.encode, Encoders.categoryEncode] at h
  split at h
  · cases h
  split at h
  · cases h
  rename_i hlen
  split at h
  · cases h
  split at h
  · cases h
  rename_i idx hidx
  split at h
  · cases h
  rename_i hlt
  split at h
  · cases h
  cases h
  refine ⟨rfl, rfl, rfl, not_not.1 hlen, fun r hr => ?_⟩
  obtain ⟨m1, m2⟩ := mapM_get _ _ _ hidx
  have hr1 : r < words.length := by omega
  obtain ⟨j, j1, j2⟩ := m2 r _ (List.getElem?_eq_getElem hr1)
  refine ⟨words[r], j, List.getElem?_eq_getElem hr1, ?_, ?_, fun c hc => ?_⟩
  · by_contra hcon
    exact hlt ⟨j, List.mem_of_getElem? j1, by omega⟩
  · exact Execute.categoryOf_some _ _ _ j2
  · simp only [j1, Option.some.injEq]
    simp only [eq_comm]

theorem pixel_says (lib : Library F) (trim : Bool) (words : List Str) (s : Shape) (t : Tensor F)
    (h : Encoder.pixel.encode lib words s trim = .ok t) : Says lib trim .pixel words s t := by
  have e : Encoder.pixel.encode lib words s trim = Encoders.encodeValues (fun w => (numberOf lib trim w).map fun v => lib.pixel (v / 255)) s.rows s.cols s.chans words := rfl
  rw [e] at h
  unfold Encoders.encodeValues at h
  cases hr : Encoders.readValues (fun w => (numberOf lib trim w).map fun v => lib.pixel (v / 255)) (s.chans * (s.rows * s.cols)) words with
  | throws => rw [hr] at h; simp at h
  | undefined => rw [hr] at h; simp at h
  | ok xs =>
    rw [hr] at h
    simp only at h
    split at h
    · simp at h
    · simp only [Out.ok.injEq] at h
      subst h
      refine ⟨rfl, rfl, rfl, fun r c k h1 h2 h3 => ?_⟩
      have hlt : (k * s.rows + r) * s.cols + c < s.chans * (s.rows * s.cols) := by
        have a1 : k * s.rows + r + 1 ≤ s.chans * s.rows := by
          calc k * s.rows + r + 1 ≤ k * s.rows + s.rows := by omega
            _ = (k + 1) * s.rows := by ring
            _ ≤ s.chans * s.rows := Nat.mul_le_mul_right _ h3
        calc (k * s.rows + r) * s.cols + c < (k * s.rows + r) * s.cols + s.cols := by omega
          _ = (k * s.rows + r + 1) * s.cols := by ring
          _ ≤ s.chans * s.rows * s.cols := Nat.mul_le_mul_right _ a1
          _ = s.chans * (s.rows * s.cols) := by ring
      obtain ⟨w, x, e1, e2, e3⟩ := (Encoders.readValues_get _ _ _ _ hr).2 _ hlt
      obtain ⟨v, v1, v2⟩ := Option.map_eq_some_iff.1 e3
      refine ⟨w, v, e1, v1, ?_⟩
      simp only [Encoders.tensorOf]
      rw [show k * (s.rows * s.cols) + r * s.cols + c = (k * s.rows + r) * s.cols + c by ring, List.getD_eq_getElem?_getD, e2, v2]
      rfl

theorem encode_says (lib : Library F) (trim : Bool) (e : Encoder) (words : List Str) (s : Shape) (t : Tensor F) (h : e.encode lib words s trim = .ok t) :
    Says lib trim e words s t := by
  cases e with
  | scalar =>
    obtain ⟨h1, h2, h3, h4⟩ := Encoders.C51_layout lib.num words s.rows s.cols s.chans trim t h
    exact ⟨h1, h2, h3, h4⟩
  | pixel => exact pixel_says lib trim words s t h
  | category labels => exact category_says lib trim labels words s t h

omit [Field F] in
theorem readValues_some {W : Type} (conv : W → Option F) : ∀ (n : Nat) (ws : List W), n ≤ ws.length → (∀ w ∈ ws, ∃ x, conv w = some x) →
    ∃ xs, Encoders.readValues conv n ws = .ok xs
  | 0, _, _, _ => ⟨[], rfl⟩
  | n + 1, [], h, _ => absurd h (by simp)
  | n + 1, w :: ws, h, hc => by
    obtain ⟨x, hx⟩ := hc w (by simp)
    obtain ⟨xs, hxs⟩ := readValues_some conv n ws (by simpa using h) fun w hw => hc w (List.mem_cons_of_mem _ hw)
    exact ⟨x :: xs, by rw [Encoders.readValues, hx]; simp only [hxs]⟩

omit [Field F] in
theorem values_some [Zero F] (conv : Str → Option F) (words : List Str) (s : Shape) (h1 : 0 < s.rows) (h2 : 0 < s.chans) (h3 : s.chans * (s.rows * s.cols) ≤ words.length)
    (h4 : ∀ w ∈ words, ∃ x, conv w = some x) : ∃ t, Encoders.encodeValues conv s.rows s.cols s.chans words = .ok t := by
  obtain ⟨xs, hxs⟩ := readValues_some conv _ words h3 h4
  refine ⟨Encoders.tensorOf s.rows s.cols s.chans xs, ?_⟩
  unfold Encoders.encodeValues
  rw [hxs]
  simp only
  rw [if_neg (by omega)]

theorem encode_readable (lib : Library F) (trim : Bool) (e : Encoder) (words : List Str) (s : Shape) (h : Readable lib trim e words s) :
    ∃ t, e.encode lib words s trim = .ok t := by
  obtain ⟨h0, h⟩ := h
  cases e with
  | scalar => exact values_some _ words s h0 h.1 h.2.1 h.2.2
  | pixel =>
    refine values_some _ words s h0 h.1 h.2.1 fun w hw => ?_
    obtain ⟨x, hx⟩ := h.2.2 w hw
    exact ⟨lib.pixel (x / 255), Option.map_eq_some_iff.2 ⟨x, hx, rfl⟩⟩
  | category labels =>
    obtain ⟨h1, h2, h3, h4, h5⟩ := h
    have hm : ∃ idx, words.mapM (fun w => Encoders.categoryOf labels (if trim then Csv.strip w else w)) = some idx ∧ ∀ i ∈ idx, i < labels.length := by
      clear h2
      induction words with
      | nil => exact ⟨[], rfl, by simp⟩
      | cons w ws ih =>
        obtain ⟨idx, i1, i2⟩ := ih fun w hw => h5 w (List.mem_cons_of_mem _ hw)
        obtain ⟨j, hj, hj'⟩ := List.getElem_of_mem (h5 w (by simp))
        have : Encoders.categoryOf labels (if trim then Csv.strip w else w) = some j :=
          Encoders.categoryOf_nodup labels h3 j _ (by rw [List.getElem?_eq_getElem hj, hj']; rfl)
        refine ⟨j :: idx, by rw [List.mapM_cons, this, i1]; rfl, ?_⟩
        simp only [List.mem_cons, forall_eq_or_imp]
        exact ⟨hj, i2⟩
    obtain ⟨idx, i1, i2⟩ := hm
    refine ⟨⟨s.rows, s.cols, s.chans, fun r c _ => if idx[r]? = some c then 1 else 0⟩, ?_⟩
    simp only [Encoder.encode, Encoders.categoryEncode]
    rw [if_neg (by simpa using h1), if_neg (by simpa using h2), if_neg (by simp [Encoders.categoryCount, h3.dedup, h4]), i1]
    simp only
    rw [if_neg, if_neg (by omega)]
    rintro ⟨i, hi, hi'⟩
    have := i2 i hi
    omega

/-! ### Records -/

theorem both_ok {A B C : Type} {a : Out A} {b : Out B} {f : A → B → C} {c : C} : both a b f = .ok c ↔ ∃ x y, a = .ok x ∧ b = .ok y ∧ c = f x y := by
  unfold both
  cases a <;> cases b <;> simp [eq_comm]

/-- A record is loaded if both parts are encoded. -/
theorem loadRecord_ok (lib : Library F) (s : Setup) (record : List Str) (p : Pair F) : loadRecord lib s record = .ok p ↔
    (if s.expectedFirst then s.expectedColumns else s.givenColumns) ≤ record.length ∧ s.givenEncoder.encode lib (givenWords s record) s.givenShape s.trim = .ok p.given ∧
      s.expectedEncoder.encode lib (expectedWords s record) s.expectedShape s.trim = .ok p.expected := by
  obtain ⟨g, e⟩ := p
  unfold loadRecord givenWords expectedWords
  cases s.expectedFirst
  · simp only [Bool.false_eq_true, if_false]
    split
    · simp; intro; omega
    · rw [both_ok]
      constructor
      · rintro ⟨x, y, h1, h2, h3⟩
        cases h3
        exact ⟨by omega, h1, h2⟩
      · rintro ⟨-, h1, h2⟩
        exact ⟨g, e, h1, h2, rfl⟩
  · simp only [if_true]
    split
    · simp; intro; omega
    · rw [both_ok]
      constructor
      · rintro ⟨x, y, h1, h2, h3⟩
        cases h3
        exact ⟨by omega, h2, h1⟩
      · rintro ⟨-, h1, h2⟩
        exact ⟨e, g, h2, h1, rfl⟩

theorem loadLines_ok (lib : Library F) (s : Setup) : ∀ (fuel : Nat) (lines : List Str) (ps : List (Pair F)), loadLines lib s fuel lines = .ok ps ↔
    ∃ records, Csv.readAll s.delimiter fuel lines = some records ∧ List.Forall₂ (fun record p => loadRecord lib s record = .ok p) records ps
  | 0, lines, ps => by
    simp only [loadLines, Csv.readAll, Out.ok.injEq, Option.some.injEq, exists_eq_left', List.forall₂_nil_left_iff]
    exact eq_comm
  | fuel + 1, [], ps => by
    simp only [loadLines, Csv.readAll, Out.ok.injEq, Option.some.injEq, exists_eq_left', List.forall₂_nil_left_iff]
    exact eq_comm
  | fuel + 1, l :: ls, ps => by
    rw [loadLines, Csv.readAll]
    cases hn : Csv.nextRecord s.delimiter (l :: ls) with
    | none => simp
    | some rr =>
      obtain ⟨record, rest⟩ := rr
      simp only [both_ok, Option.bind_some, Option.map_eq_some_iff]
      constructor
      · rintro ⟨p, qs, h1, h2, rfl⟩
        obtain ⟨records, h3, h4⟩ := (loadLines_ok lib s fuel rest qs).1 h2
        exact ⟨_, ⟨records, h3, rfl⟩, List.Forall₂.cons h1 h4⟩
      · rintro ⟨_, ⟨records, h3, rfl⟩, h4⟩
        cases h4 with
        | cons h1 h5 => exact ⟨_, _, h1, (loadLines_ok lib s fuel rest _).2 ⟨records, h3, h5⟩, rfl⟩

theorem lines_le (skip : Bool) (files : List (Option (List Str))) : (allLines skip files).length ≤ lineCount files := by
  induction files with
  | nil => simp [allLines, lineCount]
  | cons f fs ih =>
    unfold allLines lineCount at *
    simp only [List.flatMap_cons, List.length_append, List.map_cons, List.sum_cons]
    have : (LineReader.body skip f).length ≤ (f.getD []).length := by
      cases f with
      | none => simp [LineReader.body]
      | some ls =>
        simp only [LineReader.body, Option.getD_some]
        split <;> simp
    omega

/-- Loading, by records. -/
theorem load_ok (lib : Library F) (s : Setup) (files : List (Option (List Str))) (hu : ∀ f ∈ files, Useful s.header f) (ps : List (Pair F)) :
    load lib s files = .ok ps ↔ ∃ records, Csv.readAll s.delimiter (lineCount files) (allLines s.header files) = some records ∧
      List.Forall₂ (fun record p => loadRecord lib s record = .ok p) records ps := by
  unfold load
  rw [loadLines_ok, LineReader.C16_all_partial [] s.header files hu _ (lines_le _ _)]

/-- There is one pair for every record, in the order of the files, and it says what the record says. -/
theorem C147_says (lib : Library F) (s : Setup) (files : List (Option (List Str))) (hu : ∀ f ∈ files, Useful s.header f) (ps : List (Pair F))
    (h : load lib s files = .ok ps) : ∃ records, Csv.readAll s.delimiter (lineCount files) (allLines s.header files) = some records ∧
      List.Forall₂ (SaysRecord lib s) records ps := by
  obtain ⟨records, h1, h2⟩ := (load_ok lib s files hu ps).1 h
  refine ⟨records, h1, h2.imp fun record p h3 => ?_⟩
  obtain ⟨-, h4, h5⟩ := (loadRecord_ok lib s record p).1 h3
  exact ⟨encode_says lib _ _ _ _ _ h4, encode_says lib _ _ _ _ _ h5⟩

/-- Files all of whose records are complete are loaded. -/
theorem C147_loaded (lib : Library F) (s : Setup) (files : List (Option (List Str))) (hu : ∀ f ∈ files, Useful s.header f) (records : List (List Str))
    (hr : Csv.readAll s.delimiter (lineCount files) (allLines s.header files) = some records) (hc : ∀ r ∈ records, Complete lib s r) :
    ∃ ps, load lib s files = .ok ps ∧ List.Forall₂ (SaysRecord lib s) records ps := by
  have : ∃ ps, List.Forall₂ (fun record p => loadRecord lib s record = .ok p) records ps := by
    clear hr
    induction records with
    | nil => exact ⟨[], List.Forall₂.nil⟩
    | cons r rs ih =>
      obtain ⟨ps, hps⟩ := ih fun r hr => hc r (List.mem_cons_of_mem _ hr)
      obtain ⟨h1, h2, h3⟩ := hc r (by simp)
      obtain ⟨g, hg⟩ := encode_readable lib _ _ _ _ h2
      obtain ⟨e, he⟩ := encode_readable lib _ _ _ _ h3
      exact ⟨⟨g, e⟩ :: ps, List.Forall₂.cons ((loadRecord_ok lib s r ⟨g, e⟩).2 ⟨h1, hg, he⟩) hps⟩
  obtain ⟨ps, hps⟩ := this
  have h := (load_ok lib s files hu ps).2 ⟨records, hr, hps⟩
  refine ⟨ps, h, hps.imp fun record p h3 => ?_⟩
  obtain ⟨-, h4, h5⟩ := (loadRecord_ok lib s record p).1 h3
  exact ⟨encode_says lib _ _ _ _ _ h4, encode_says lib _ _ _ _ _ h5⟩

/-! ### Written files -/

/-- The lines of a file with records as the library writes them, below a header if there is one. -/
def file (num : Str → Bool) (s : Setup) (header : List Str) (rs : List (List Str)) : List (Option (List Str)) :=
  [some (Lines.getLines NL (Lines.putLines NL (((if s.header then [header] else []) ++ rs).map (writeRecord num s.delimiter))))]

theorem file_lines (num : Str → Bool) (s : Setup) (hn : s.delimiter ≠ NL) (header : List Str) (rs : List (List Str)) (hh : ∀ f ∈ header, Safe num s.delimiter f)
    (hs : ∀ r ∈ rs, ∀ f ∈ r, Safe num s.delimiter f) : allLines s.header (file num s header rs) = rs.map (writeRecord num s.delimiter) := by
  have hl := Lines.getLines_putLines NL (((if s.header then [header] else []) ++ rs).map (writeRecord num s.delimiter)) (by
    intro l hl
    obtain ⟨r, hr, rfl⟩ := List.mem_map.mp hl
    refine Csv.NL_not_mem_writeRecord num s.delimiter hn r ?_
    rw [List.mem_append] at hr
    rcases hr with hr | hr
    · split at hr
      · rw [List.mem_singleton.1 hr]
        exact hh
      · simp at hr
    · exact hs r hr)
  unfold file
  rw [hl]
  cases s.header <;> simp [allLines, LineReader.body]

omit [Field F] in
/-- A written file is read record by record. -/
theorem file_ok (num : Str → Bool) (s : Setup) (hq : s.delimiter ≠ Q) (hn : s.delimiter ≠ NL) (header : List Str) (hh : ∀ f ∈ header, Safe num s.delimiter f)
    (rs : List (List Str)) (hrs : rs ≠ []) (hne : ∀ r ∈ rs, r ≠ []) (hs : ∀ r ∈ rs, ∀ f ∈ r, Safe num s.delimiter f) :
    (∀ f ∈ file num s header rs, Useful s.header f) ∧
      Csv.readAll s.delimiter (lineCount (file num s header rs)) (allLines s.header (file num s header rs)) = some rs := by
  have hl := file_lines num s hn header rs hh hs
  refine ⟨fun f hf => ?_, ?_⟩
  · have hl2 := hl
    unfold allLines at hl2
    unfold file at hl2 hf
    rw [List.mem_singleton] at hf
    subst hf
    simp only [List.flatMap_cons, List.flatMap_nil, List.append_nil] at hl2
    unfold Useful
    rw [hl2]
    simpa using hrs
  · have h2 := lines_le s.header (file num s header rs)
    rw [hl] at h2 ⊢
    exact Csv.readAll_map num s.delimiter hq rs hne hs _ (by simpa using h2)

/-- Complete records that are written to a file, below a header if there is one, are loaded: one pair for each, in order, that says what the record says. -/
theorem C147_written (lib : Library F) (num : Str → Bool) (s : Setup) (hq : s.delimiter ≠ Q) (hn : s.delimiter ≠ NL) (header : List Str)
    (hh : ∀ f ∈ header, Safe num s.delimiter f) (rs : List (List Str)) (hrs : rs ≠ []) (hne : ∀ r ∈ rs, r ≠ []) (hs : ∀ r ∈ rs, ∀ f ∈ r, Safe num s.delimiter f)
    (hc : ∀ r ∈ rs, Complete lib s r) : ∃ ps, load lib s (file num s header rs) = .ok ps ∧ List.Forall₂ (SaysRecord lib s) rs ps := by
  obtain ⟨h1, h2⟩ := file_ok num s hq hn header hh rs hrs hne hs
  exact C147_loaded lib s _ h1 rs h2 hc

/-- The same arguments for a file with the expected columns at the other end. -/
def Setup.swapped (s : Setup) : Setup := { s with expectedFirst := !s.expectedFirst }

/-- A record with its two parts exchanged. -/
def exchange (s : Setup) (record : List Str) : List Str := if s.expectedFirst then givenWords s record ++ expectedWords s record else expectedWords s record ++ givenWords s record

/-- It does not matter whether the expected columns come first or last: exchanging them in the file and in the arguments gives the same dataset. -/
theorem C147_swapped (lib : Library F) (num : Str → Bool) (s : Setup) (hq : s.delimiter ≠ Q) (hn : s.delimiter ≠ NL) (header : List Str)
    (hh : ∀ f ∈ header, Safe num s.delimiter f) (rs : List (List Str)) (hrs : rs ≠ []) (hne : ∀ r ∈ rs, r ≠ []) (hs : ∀ r ∈ rs, ∀ f ∈ r, Safe num s.delimiter f)
    (hc : ∀ r ∈ rs, r.length = s.givenColumns + s.expectedColumns) (ps : List (Pair F)) (h : load lib s (file num s header rs) = .ok ps) :
    load lib s.swapped (file num s.swapped header (rs.map (exchange s))) = .ok ps := by
  have hmem : ∀ r, ∀ f ∈ exchange s r, f ∈ r := by
    intro r f hf
    unfold exchange givenWords expectedWords at hf
    cases he : s.expectedFirst <;> simp only [he, if_true, Bool.false_eq_true, if_false, List.mem_append] at hf
    all_goals
      rcases hf with hf | hf
      · exact List.mem_of_mem_drop hf
      · exact List.mem_of_mem_take hf
  obtain ⟨h1, h2⟩ := file_ok num s hq hn header hh rs hrs hne hs
  obtain ⟨h3, h4⟩ := file_ok num s.swapped hq hn header hh (rs.map (exchange s)) (by simpa using hrs)
    (by
      intro r hr
      obtain ⟨r', hr', rfl⟩ := List.mem_map.1 hr
      have := hne r' hr'
      rw [Ne, ← List.length_eq_zero_iff] at this ⊢
      have e : (exchange s r').length = r'.length := by
        have := hc r' hr'
        unfold exchange givenWords expectedWords
        cases s.expectedFirst <;> simp only [if_true, Bool.false_eq_true, if_false, List.length_append, List.length_take, List.length_drop] <;> omega
      rw [e]
      exact this)
    (by
      intro r hr f hf
      obtain ⟨r', hr', rfl⟩ := List.mem_map.1 hr
      exact hs r' hr' f (hmem r' f hf))
  obtain ⟨records, r1, r2⟩ := (load_ok lib s _ h1 ps).1 h
  rw [h2, Option.some.injEq] at r1
  subst r1
  refine (load_ok lib s.swapped _ h3 ps).2 ⟨_, h4, ?_⟩
  rw [List.forall₂_map_left_iff]
  clear h1 h2 h3 h4 h hrs hne hs
  induction r2 with
  | nil => exact List.Forall₂.nil
  | @cons r p rs ps hp _ ih =>
    refine List.Forall₂.cons ?_ (ih fun r hr => hc r (List.mem_cons_of_mem _ hr))
    have hl := hc r (by simp)
    rw [loadRecord_ok] at hp ⊢
    obtain ⟨p1, p2, p3⟩ := hp
    unfold exchange givenWords expectedWords Setup.swapped at *
    cases he : s.expectedFirst <;> simp only [he, if_true, Bool.false_eq_true, if_false, Bool.not_true, Bool.not_false] at *
    · rw [List.take_left' (by simp; omega), List.drop_left' (by simp; omega)]
      exact ⟨by simp; omega, p2, p3⟩
    · rw [List.take_left' (by simp; omega), List.drop_left' (by simp; omega)]
      exact ⟨by simp; omega, p2, p3⟩

/-! ### Disagreements -/

/-- A path that cannot be opened is loaded as an empty dataset. -/
theorem C147_missing_violated (lib : Library F) (s : Setup) : load lib s [none] = .ok [] := rfl

/-- The last column is a label `A` or `B`, the first two are numbers. -/
def setup : Setup := ⟨44, false, false, false, 1, 2, ⟨1, 2, 1⟩, ⟨1, 2, 1⟩, .category [[65], [66]], .scalar⟩

/-- A record with one of two given columns: the iterator is advanced past the end. -/
theorem C147_short_violated (lib : Library F) : load lib setup [some [[49]]] = .undefined := by
  have : Csv.nextRecord 44 [[49]] = some ([[49]], []) := by decide +kernel
  show loadLines lib setup 1 [[49]] = _
  unfold loadLines
  simp only [show setup.delimiter = 44 from rfl, this]
  rfl

/-- ... for example a blank line at the end of the file. -/
theorem C147_blank_violated (lib : Library F) (h : lib.num [49] = some 1) :
    load lib setup [some [[49, 44, 49, 44, 65], []]] = .undefined ∧ ∃ ps, load lib setup [some [[49, 44, 49, 44, 65]]] = .ok ps := by
  have e1 : Csv.nextRecord 44 [[49, 44, 49, 44, 65], []] = some ([[49], [49], [65]], [[]]) := by decide +kernel
  have e2 : Csv.nextRecord 44 [[]] = some ([[]], []) := by decide +kernel
  have e3 : Csv.nextRecord 44 [[49, 44, 49, 44, 65]] = some ([[49], [49], [65]], []) := by decide +kernel
  have r : ∃ p, loadRecord lib setup [[49], [49], [65]] = .ok p := by
    obtain ⟨g, hg⟩ := encode_readable lib false .scalar [[49], [49]] ⟨1, 2, 1⟩ (by simp [Readable, numberOf, meant, h])
    obtain ⟨e, he⟩ := encode_readable lib false (.category [[65], [66]]) [[65]] ⟨1, 2, 1⟩ (by simp [Readable, meant])
    exact ⟨⟨g, e⟩, (loadRecord_ok lib setup _ ⟨g, e⟩).2 ⟨by decide, hg, he⟩⟩
  obtain ⟨p, hp⟩ := r
  refine ⟨?_, [p], ?_⟩
  · show loadLines lib setup 2 [[49, 44, 49, 44, 65], []] = _
    unfold loadLines
    simp only [show setup.delimiter = 44 from rfl, e1, hp]
    unfold loadLines
    simp only [show setup.delimiter = 44 from rfl, e2]
    rfl
  · show loadLines lib setup 1 [[49, 44, 49, 44, 65]] = _
    unfold loadLines
    simp only [show setup.delimiter = 44 from rfl, e3, hp]
    rfl

/-! ### Examples -/

/-- Only `1` is a number. -/
def ones : Library ℚ := ⟨fun w => if w = [49] then some 1 else none, id⟩

example : ∃ ps, load ones { setup with header := true } (file (fun _ => false) { setup with header := true } [[97], [98]] [[[49], [], [66]], [[], [49], [65]]]) = .ok ps ∧
    List.Forall₂ (SaysRecord ones { setup with header := true }) [[[49], [], [66]], [[], [49], [65]]] ps := by
  apply C147_written ones (fun _ => false) { setup with header := true } (by decide) (by decide) [[97], [98]] (by unfold Safe; decide +kernel) _ (by decide) (by decide)
    (by unfold Safe; decide +kernel)
  simp only [List.mem_cons, List.not_mem_nil, or_false, forall_eq_or_imp, forall_eq]
  constructor <;> simp [Complete, Readable, givenWords, expectedWords, setup, numberOf, meant, ones]

-- the label first: the same dataset
example : ∃ ps, load ones setup (file (fun _ => false) setup [] [[[49], [], [66]]]) = .ok ps ∧
    load ones setup.swapped (file (fun _ => false) setup.swapped [] [[[66], [49], []]]) = .ok ps := by
  have hs : ∀ r ∈ [[[49], [], [66]]], ∀ f ∈ r, Safe (fun _ => false) setup.delimiter f := by unfold Safe; decide +kernel
  obtain ⟨ps, h, -⟩ := C147_written ones (fun _ => false) setup (by decide) (by decide) [] (by simp) [[[49], [], [66]]] (by decide) (by decide) hs (by
    simp only [List.mem_cons, List.not_mem_nil, or_false, forall_eq]
    simp [Complete, Readable, givenWords, expectedWords, setup, numberOf, meant, ones])
  exact ⟨ps, h, C147_swapped ones (fun _ => false) setup (by decide) (by decide) [] (by simp) [[[49], [], [66]]] (by decide) (by decide) hs (by decide) ps h⟩

end Verif.LoadDelimited
