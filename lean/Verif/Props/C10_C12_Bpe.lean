import Verif.Lemmas.BpeTrain
import Mathlib.Data.List.Infix

/-!
C10, C11, C12: the byte-pair encoder.

* C10 — decoding the encoding of any byte string returns it, for every table whose codes are single, pairwise different characters that do not occur in the
  (widened) text and differ from the delimiter (`C10_round_trip`), in particular for every encoder reached by training
  (`C10_trained_partial`), as long as the code counter has not run past its documented limit when a training call starts.
* C11 — training terminates for every vocabulary, map iteration order and early-stopping behaviour (`C11_terminates`); the codes it adds are pairwise
  different, above the delimiter and all previous codes (`C11_train_step`), and never reach the reserved value while the counter is below 0x7FFE when the call
  starts (`C11_codes_partial`). When it is not, a training call does assign the reserved code 0x7FFF (`C11_reserved_violated`). Training
  on an empty token is undefined behaviour (`C11_empty_token_violated`).
* C12 — loading what was saved into a fresh encoder gives the same table and delimiter, hence the same encoding and decoding (`C12_round_trip`); a file cut
  off at any byte (crash while writing) loads as a prefix of the table (`C12_truncated`). Loading into an encoder that already has
  codes keeps the old ones and can change the encoding (`C12_load_twice_violated`).
-/
namespace Verif.Bpe
open Verif.ReplaceAll

/-- Specification of a usable table for a text: codes are single characters, pairwise different, different from the delimiter and absent from the text. -/
def Usable (m : Model) (text : Str8) : Prop :=
  (∀ e ∈ m.table, ∃ k, e.2 = [k] ∧ k ≠ m.delim ∧ ∀ c ∈ text, k ≠ widen c) ∧ (m.table.map Prod.snd).Nodup

/-- Encoding loses nothing. -/
theorem C10_round_trip (m : Model) (text : Str8) (h : Usable m text) : decode m (encode m text) = some text := by
  by_cases ht : text = []
  · subst ht; simp [encode, decode]
  · have hf : Fresh m.table.reverse (· ∈ [m.delim] ++ text.map widen ++ [m.delim]) := by
      refine ⟨?_, ?_⟩
      · intro e he
        obtain ⟨k, hk, h1, h2⟩ := h.1 e (List.mem_reverse.mp he)
        refine ⟨k, hk, ?_⟩
        simp only [List.mem_append, List.mem_singleton, List.mem_map]
        rintro ((h | ⟨c, hc, rfl⟩) | h)
        · exact h1 h
        · exact h2 c hc rfl
        · exact h1 h
      · rw [List.map_reverse, List.nodup_reverse]; exact h.2
    have hc := codec m.table.reverse _ hf
    rw [List.reverse_reverse] at hc
    have hne : encode m text ≠ [] := by
      intro he
      rw [encode, if_neg ht] at he
      rw [he] at hc
      have hnil : ∀ l : List (Str16 × Str16), l.foldl (fun s e => replaceAll s e.2 e.1) ([] : Str16) = [] := by
        intro l
        induction l with
        | nil => rfl
        | cons e l ih =>
          simp only [List.foldl_cons]
          have : replaceAll ([] : Str16) e.2 e.1 = [] := by
            unfold replaceAll; split
            · rw [loop]; simp
            · rfl
          rw [this]; exact ih
      rw [hnil] at hc
      simp at hc
    have he : encode m text = m.table.reverse.foldl (fun s e => replaceAll s e.1 e.2) ([m.delim] ++ text.map widen ++ [m.delim]) := by
      rw [encode, if_neg ht]
    unfold decode
    rw [if_neg hne, he, hc]
    simp only [List.length_append, List.length_singleton, List.length_map]
    rw [if_neg (by omega)]
    have : (List.drop 1 ([m.delim] ++ text.map widen ++ [m.delim])).dropLast = text.map widen := by simp
    rw [this, List.map_map]
    have hid : (narrow ∘ widen) = id := by funext c; exact narrow_widen c
    rw [hid, List.map_id]

/-! ### C11 -/

/-- Training terminates: with as many iterations as the total length of the vocabulary's keys (plus one) the loop always finishes, whatever the map iteration order
and the early-stopping decisions. -/
theorem C11_terminates (o : Oracle) (minFreq numMerges : Nat) (m : Model) (data : List Str8) (vocab : Vocab)
    (hv : buildVocab m data = some vocab) (fuel : Nat) (hf : measure vocab < fuel) :
    ∃ m', train o minFreq numMerges fuel m data = some m' := by
  obtain ⟨r, hr⟩ := trainLoop_terminates o minFreq numMerges fuel 0 vocab (m.table.foldl (fun c e => mapSet c e.1 e.2) [])
    (bumpNext m.table m.next) hf
  exact ⟨⟨sortCodes r.1, m.delim, r.2⟩, by rw [train, hv]; simp only [Option.bind_some, hr, Option.map_some]⟩

/-- ... and the vocabulary of non-empty tokens is always defined. -/
theorem C11_vocab (m : Model) (data : List Str8) (h : ∀ t ∈ data, encode m t ≠ []) : ∃ v, buildVocab m data = some v := by
  unfold buildVocab
  have : ∀ (l : List Str8) (acc : Vocab), (∀ t ∈ l, encode m t ≠ []) → ∃ v, l.foldl (fun acc t => acc.bind (fun v =>
      if encode m t = [] then none else some ((pairs (encode m t)).foldl countUp v))) (some acc) = some v := by
    intro l
    induction l with
    | nil => intro acc _; exact ⟨acc, rfl⟩
    | cons t l ih =>
      intro acc hl
      simp only [List.foldl_cons, Option.bind_some]
      rw [if_neg (hl t List.mem_cons_self)]
      exact ih _ (fun t ht => hl t (List.mem_cons_of_mem _ ht))
  exact this data [] h

/-- One training call on a table whose codes are below 0x7FFF: every code of the new table is a single character above the delimiter and below the new counter,
all codes are pairwise different, and the counter did not decrease. -/
theorem C11_train_step (o : Oracle) (minFreq numMerges fuel : Nat) (m m' : Model) (data : List Str8)
    (ht : train o minFreq numMerges fuel m data = some m') (hok : Ok m.delim m.table 0x7FFF#16)
    (hd : m.delim < m.next) (hcap : (bumpNext m.table m.next).toNat < 65535) :
    m'.delim = m.delim ∧ Ok m.delim m'.table m'.next ∧ m.next ≤ m'.next ∧
    (m'.next.toNat ≤ 0x7FFE ∨ m'.next.toNat ≤ (bumpNext m.table m.next).toNat + 1) := by
  unfold train at ht
  cases hb : buildVocab m data with
  | none => rw [hb] at ht; simp at ht
  | some vocab =>
    rw [hb] at ht
    simp only [Option.bind_some] at ht
    rw [fold_mapSet m.table [] (by simpa using hok.2.2), List.nil_append] at ht
    cases hl : trainLoop o minFreq numMerges fuel 0 vocab m.table (bumpNext m.table m.next) with
    | none => rw [hl] at ht; simp at ht
    | some r =>
      rw [hl] at ht
      simp only [Option.map_some, Option.some.injEq] at ht
      subst ht
      have hge := bumpNext_ge m.table m.next
      have hok' : Ok m.delim m.table (bumpNext m.table m.next) := by
        refine ⟨?_, hok.2⟩
        intro e he
        obtain ⟨h2, k, hk, ha, hb⟩ := hok.1 e he
        exact ⟨h2, k, hk, ha, bumpNext_gt m.table m.next e he k hk hb⟩
      obtain ⟨h1, h2, h3⟩ := trainLoop_ok o minFreq numMerges fuel m.delim _ _ _ _ _ hl hok'
        (by rw [BitVec.lt_def, BitVec.le_def] at *; omega) hcap
      exact ⟨rfl, ok_perm (sortCodes_perm _) h1, BitVec.le_trans hge h2, h3⟩

/-- Encoders reached from a new one by training calls that start below the documented limit and by saving and reloading into a new encoder. -/
inductive Reach (delim : BitVec 16) : Model → Prop
  | fresh : Reach delim (new delim)
  | train {m m' o minFreq numMerges fuel data} : Reach delim m → (bumpNext m.table m.next).toNat < 0x7FFE →
      train o minFreq numMerges fuel m data = some m' → Reach delim m'
  | reload {m} : Reach delim m → Reach delim ⟨m.table, m.delim, m.delim + 1⟩

theorem reach_ok {delim : BitVec 16} (hd : delim.toNat < 0x7FFD) {m : Model} (h : Reach delim m) :
    m.delim = delim ∧ delim < m.next ∧ Ok delim m.table 0x7FFE#16 := by
  have hlt : delim < delim + 1 := by rw [BitVec.lt_def, BitVec.toNat_add]; simp; omega
  induction h with
  | fresh => exact ⟨rfl, hlt, by simp [new, Ok]⟩
  | @train m m' o minFreq numMerges fuel data _ hcap ht ih =>
    obtain ⟨rfl, h2, h3⟩ := ih
    obtain ⟨e, hok, hle, hb⟩ := C11_train_step o minFreq numMerges fuel m m' data ht
      (ok_mono h3 (by decide)) h2 (by omega)
    refine ⟨e, ?_, ok_mono hok ?_⟩
    · rw [BitVec.lt_def, BitVec.le_def] at *; omega
    · rw [BitVec.le_def]; simp; omega
  | reload _ ih =>
    obtain ⟨rfl, h2, h3⟩ := ih
    exact ⟨rfl, hlt, h3⟩

/-- Every code of a trained encoder is a single character strictly above the delimiter and below the reserved values 0x7FFE, 0x7FFF; all are pairwise different; and with
the delimiter at least 127 (the default is 256) none is a raw character. -/
theorem C11_codes_partial (delim : BitVec 16) (hlo : 127 ≤ delim.toNat) (hd : delim.toNat < 0x7FFD) (m : Model) (h : Reach delim m) :
    (∀ e ∈ m.table, ∃ k, e.2 = [k] ∧ delim < k ∧ k.toNat < 0x7FFE ∧ ∀ c, k ≠ widen c) ∧ (m.table.map Prod.snd).Nodup := by
  obtain ⟨_, _, hok⟩ := reach_ok hd h
  refine ⟨?_, hok.2.1⟩
  intro e he
  obtain ⟨_, k, hk, h1, h2⟩ := hok.1 e he
  refine ⟨k, hk, h1, by rw [BitVec.lt_def] at h2; simpa using h2, ?_⟩
  rintro c rfl
  have hw : ∀ c : BitVec 8, (widen c).toNat ≤ 127 ∨ 0xFF80 ≤ (widen c).toNat := by decide +kernel
  rw [BitVec.lt_def] at h1 h2
  have := hw c
  simp at h2
  omega

/-- Every trained encoder loses nothing on every text. (`_partial`: training calls that start with the counter already at 0x7FFE or above are excluded.) -/
theorem C10_trained_partial (delim : BitVec 16) (hlo : 127 ≤ delim.toNat) (hd : delim.toNat < 0x7FFD) (m : Model) (h : Reach delim m)
    (text : Str8) : decode m (encode m text) = some text := by
  obtain ⟨h1, h2⟩ := C11_codes_partial delim hlo hd m h
  apply C10_round_trip
  refine ⟨?_, h2⟩
  intro e he
  obtain ⟨k, hk, ha, _, hc⟩ := h1 e he
  refine ⟨k, hk, ?_, fun c _ => hc c⟩
  rw [(reach_ok hd h).1]
  rintro rfl
  exact absurd ha (by simp)

/-- The identity iteration order, never stopping early. -/
def plainOracle : Oracle := ⟨fun _ v => v, fun _ _ => List.Perm.refl _, fun _ => false⟩

/-- An encoder configured with one (fresh, legal) code 0x7FFD and trained twice assigns the reserved code 0x7FFF. -/
theorem C11_reserved_violated :
    ∃ (m1 m2 : Model), train plainOracle 2 (2 ^ 64 - 1) 100 (configure [([97, 98], [0x7FFD])] 256) [[99, 100], [99, 100]] = some m1 ∧
      train plainOracle 2 (2 ^ 64 - 1) 100 m1 [[101, 102], [101, 102]] = some m2 ∧
      ∃ e ∈ m2.table, e.2 = [0x7FFF#16] := by
  refine ⟨⟨[([256, 99], [0x7FFE]), ([97, 98], [0x7FFD])], 256, 0x7FFF⟩,
    ⟨[([256, 101], [0x7FFF]), ([256, 99], [0x7FFE]), ([97, 98], [0x7FFD])], 256, 0x8000⟩, ?_, ?_, ?_⟩
  · decide +kernel
  · decide +kernel
  · decide +kernel

/-- Training on an empty token is undefined behaviour. -/
theorem C11_empty_token_violated (o : Oracle) (minFreq numMerges fuel : Nat) (m : Model) :
    train o minFreq numMerges fuel m [[]] = none := by
  simp [train, buildVocab, encode]

/-! ### C12 -/

theorem unle16_le16 (x : BitVec 16) : unle16 (x.setWidth 8) ((x >>> 8).setWidth 8) = x := by
  unfold unle16
  apply BitVec.eq_of_getLsbD_eq
  intro i hi
  simp only [BitVec.getLsbD_append]
  split
  · rename_i h; simp [h]
  · rename_i h
    simp only [BitVec.getLsbD_setWidth, BitVec.getLsbD_ushiftRight]
    rw [show 8 + (i - 8) = i by omega]
    simp; omega

theorem readChars_save (s : Str16) (rest : Str8) (n : Nat) : readChars s.length ((s.flatMap le16 ++ rest).take n) =
    if n < 2 * s.length then none else some (s, rest.take (n - 2 * s.length)) := by
  induction s generalizing n with
  | nil => simp [readChars]
  | cons c s ih =>
    simp only [List.flatMap_cons, le16, List.length_cons, List.cons_append, List.nil_append]
    match n with
    | 0 => simp [readChars]
    | 1 => simp [readChars]; omega
    | n + 2 =>
      simp only [List.take_succ_cons, readChars, ih]
      by_cases h : n < 2 * s.length
      · rw [if_pos h, if_pos (by omega)]; rfl
      · rw [if_neg h, if_neg (by omega)]
        simp only [Option.map_some, unle16_le16, Option.some.injEq, Prod.mk.injEq, true_and]
        congr 1; omega

theorem saveStr_length (s : Str16) (h : s.length < 65536) : (saveStr s).length = 2 + 2 * s.length := by
  unfold saveStr
  rw [Nat.mod_eq_of_lt h, List.take_length]
  have : (s.flatMap le16).length = 2 * s.length := by
    induction s with
    | nil => rfl
    | cons c s ih => simp only [List.flatMap_cons, List.length_append, ih (by simp at h; omega), le16, List.length_cons, List.length_nil]; omega
  rw [List.length_append, this]
  rfl

theorem readStr_save (s : Str16) (h : s.length < 65536) (rest : Str8) (n : Nat) : readStr ((saveStr s ++ rest).take n) =
    if n < (saveStr s).length then none else some (s, rest.take (n - (saveStr s).length)) := by
  rw [saveStr_length s h]
  unfold saveStr
  rw [Nat.mod_eq_of_lt h, List.take_length]
  simp only [le16, List.cons_append, List.nil_append]
  match n with
  | 0 => simp [readStr]
  | 1 => simp [readStr]; omega
  | n + 2 =>
    simp only [List.take_succ_cons, readStr]
    have hl : (unle16 ((BitVec.ofNat 16 s.length).setWidth 8) ((BitVec.ofNat 16 s.length >>> 8).setWidth 8)).toNat = s.length := by
      rw [unle16_le16]; simp; omega
    rw [hl, readChars_save]
    by_cases hn : n < 2 * s.length
    · rw [if_pos hn, if_pos (by omega)]
    · rw [if_neg hn, if_neg (by omega)]
      congr 3; omega

/-- Strings whose length fits the 16-bit length field. -/
def Small (table : List (Str16 × Str16)) : Prop := ∀ e ∈ table, e.1.length < 65536 ∧ e.2.length < 65536

theorem readPairs_take (table : List (Str16 × Str16)) : ∀ (n fuel : Nat), Small table →
    ∃ l, readPairs fuel ((table.flatMap (fun e => saveStr e.1 ++ saveStr e.2)).take n) = l ∧ l <+: table ∧
      (n = (table.flatMap (fun e => saveStr e.1 ++ saveStr e.2)).length → table.length < fuel → l = table) := by
  induction table with
  | nil =>
    intro n fuel _
    cases fuel with
    | zero => exact ⟨[], by simp [readPairs], by simp, by simp⟩
    | succ f => exact ⟨[], by simp [readPairs, readStr], by simp, by simp⟩
  | cons e t ih =>
    intro n fuel hs
    cases fuel with
    | zero => exact ⟨[], by simp [readPairs], by simp, by simp⟩
    | succ f =>
      obtain ⟨s1, s2⟩ := hs e List.mem_cons_self
      simp only [List.flatMap_cons, List.append_assoc]
      rw [readPairs, readStr_save e.1 s1]
      by_cases h1 : n < (saveStr e.1).length
      · rw [if_pos h1]
        refine ⟨[], rfl, by simp, ?_⟩
        intro hn; rw [hn, List.length_append] at h1; omega
      · rw [if_neg h1]
        simp only []
        rw [readStr_save e.2 s2]
        by_cases h2 : n - (saveStr e.1).length < (saveStr e.2).length
        · rw [if_pos h2]
          refine ⟨[], rfl, by simp, ?_⟩
          intro hn; rw [hn, List.length_append, List.length_append] at h2; omega
        · rw [if_neg h2]
          obtain ⟨l, hl, hp, hx⟩ := ih (n - (saveStr e.1).length - (saveStr e.2).length) f (fun e he => hs e (List.mem_cons_of_mem _ he))
          refine ⟨e :: l, by simp only [hl], List.cons_prefix_cons.mpr ⟨rfl, hp⟩, ?_⟩
          intro hn hf
          rw [hx ?_ (by simpa using hf)]
          rw [hn, List.length_append, List.length_append]; omega

theorem flat_len (table : List (Str16 × Str16)) (hs : Small table) :
    table.length ≤ (table.flatMap (fun e => saveStr e.1 ++ saveStr e.2)).length := by
  induction table with
  | nil => simp
  | cons e t ih =>
    have := ih (fun e he => hs e (List.mem_cons_of_mem _ he))
    obtain ⟨s1, s2⟩ := hs e List.mem_cons_self
    simp only [List.flatMap_cons, List.length_append, List.length_cons, saveStr_length _ s1]
    omega

/-- Loading a saved encoder into a new one restores table and delimiter, so it encodes and decodes every text identically. -/
theorem C12_round_trip (m : Model) (d0 : BitVec 16) (hs : Small m.table) :
    (load (new d0) (saveBytes m)).table = m.table ∧ (load (new d0) (saveBytes m)).delim = m.delim ∧
    (∀ text, encode (load (new d0) (saveBytes m)) text = encode m text) ∧
    (∀ s, decode (load (new d0) (saveBytes m)) s = decode m s) := by
  have h1 : load (new d0) (saveBytes m) = ⟨m.table, m.delim, m.delim + 1⟩ := by
    unfold saveBytes load
    simp only [le16, List.cons_append, List.nil_append, unle16_le16, new]
    obtain ⟨l, h2, _, h4⟩ := readPairs_take m.table _
      ((m.table.flatMap (fun e => saveStr e.1 ++ saveStr e.2)).length + 1) hs
    rw [List.take_length] at h2
    rw [h4 rfl (by have := flat_len m.table hs; omega)] at h2
    rw [h2]
  rw [h1]
  exact ⟨rfl, rfl, fun _ => rfl, fun _ => rfl⟩

/-- A file cut off after any number of bytes (at least the two delimiter bytes) loads as a prefix of the table with the right delimiter: never a wrong code. -/
theorem C12_truncated (m : Model) (d0 : BitVec 16) (hs : Small m.table) (n : Nat) (hn : 2 ≤ n) :
    (load (new d0) ((saveBytes m).take n)).table <+: m.table ∧ (load (new d0) ((saveBytes m).take n)).delim = m.delim := by
  obtain ⟨k, rfl⟩ : ∃ k, n = k + 2 := ⟨n - 2, by omega⟩
  unfold saveBytes load
  simp only [le16, List.cons_append, List.nil_append, List.take_succ_cons, unle16_le16, new, and_true]
  obtain ⟨l, h2, h3, _⟩ := readPairs_take m.table k
    (((m.table.flatMap (fun e => saveStr e.1 ++ saveStr e.2)).take k).length + 1) hs
  rw [h2]
  exact h3

/-- Loading into an encoder that already has codes is not equivalent to the saved encoder. -/
theorem C12_load_twice_violated : ∃ (m0 m : Model) (text : Str8), Small m.table ∧
    encode (load m0 (saveBytes m)) text ≠ encode m text := by
  refine ⟨⟨[([97, 98], [300])], 256, 301⟩, ⟨[([97, 99], [257])], 256, 258⟩, [97, 98], ?_, ?_⟩
  · intro e he; simp at he; subst he; decide
  · decide +kernel

-- Non-vacuity
example : Usable (configure [([97, 98], [257]), ([257, 99], [258])] 256) [97, 98, 99, 200] := by
  refine ⟨?_, ?_⟩
  · intro e he
    have h := (sortCodes_perm [([97, 98], [257]), (([257, 99] : Str16), ([258] : Str16))]).mem_iff.mp he
    simp only [List.mem_cons, List.not_mem_nil, or_false] at h
    rcases h with rfl | rfl
    · exact ⟨257, rfl, by decide, by decide⟩
    · exact ⟨258, rfl, by decide, by decide⟩
  · decide +kernel
example : encode (configure [([97, 98], [257]), ([257, 99], [258])] 256) [97, 98, 99, 200] = [256, 258, 0xFFC8, 256] := by decide +kernel
example : ∃ m, Reach 256 m ∧ m.table = [([256, 97], [257])] :=
  ⟨_, .train (o := plainOracle) (minFreq := 2) (numMerges := 1) (fuel := 50) (data := [[97, 98], [97, 98]]) .fresh (by decide)
    (show _ = some (⟨[([256, 97], [257])], 256, 258⟩ : Model) by decide +kernel), rfl⟩
example : Small [([97#16, 98], [257])] := by intro e he; simp at he; subst he; decide

end Verif.Bpe
