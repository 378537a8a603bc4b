import Verif.Lemmas.BpeReach
import Verif.Model.BpeFiles
import Verif.Props.C10_C12_Bpe
import Verif.Props.C13_C14_Tokenizer
import Mathlib.Algebra.Order.Field.Rat
import Mathlib.Tactic.Positivity
import Mathlib.Tactic.Linarith

/-!
# C127: training a tokenizer learns the most frequent pairs and shortens texts

For all encoders reached by training and reloading, all training texts, all iteration orders of the hash maps and all decisions of early stopping.
-/
namespace Verif.Bpe
open Verif.ReplaceAll

theorem reach_inv {delim : BitVec 16} (hlo : 127 ≤ delim.toNat) (hd : delim.toNat < 0x7FFD) {m : Model} (h : Reach delim m) : Inv delim m := by
  have hlt : delim < delim + 1 := by rw [BitVec.lt_def, BitVec.toNat_add]; simp; omega
  induction h with
  | fresh => exact ⟨rfl, hlt, by simp [new], by simp [new], by simp [new]⟩
  | train _ hcap ht ih => exact (train_learns hlo ih hcap _ _ _ _ _ _ ht).1
  | reload _ ih => exact ⟨ih.delim_eq, by rw [ih.delim_eq]; exact hlt, ih.shape, ih.desc, ih.keys⟩

/-- **C127.** A training call keeps all codes that were known and gives the next free codes, in this order, to pairs of neighbours in the training texts (as encoded
so far): different pairs, each seen at least `minFreq` times, the more frequent ones first, no pair left out that was seen more often than one that got a code. At most
`numMerges` pairs (but at least one) get a code; if fewer do, all pairs that are frequent enough have one, unless the codes are used up or early stopping intervened. -/
theorem C127_learned (delim : BitVec 16) (hlo : 127 ≤ delim.toNat) (hd : delim.toNat < 0x7FFD) (m : Model) (h : Reach delim m)
    (hcap : (bumpNext m.table m.next).toNat < 0x7FFE) (o : Oracle) (minFreq numMerges fuel : Nat) (data : List Str8) (m' : Model)
    (ht : train o minFreq numMerges fuel m data = some m') :
    ∃ l : List (BitVec 16 × BitVec 16),
      m'.table = (learned (bumpNext m.table m.next) l).reverse ++ m.table ∧ m'.next.toNat = (bumpNext m.table m.next).toNat + l.length ∧
      m'.next.toNat ≤ 0x7FFE ∧ l.Nodup ∧
      (∀ p ∈ l, 0 < seen (data.map (encode m)) p ∧ minFreq ≤ seen (data.map (encode m)) p) ∧
      l.Pairwise (fun p q => seen (data.map (encode m)) q ≤ seen (data.map (encode m)) p) ∧
      (∀ p ∈ l, ∀ q, q ∉ l → seen (data.map (encode m)) q ≤ seen (data.map (encode m)) p) ∧ l.length ≤ max 1 numMerges ∧
      ((∀ q, 0 < seen (data.map (encode m)) q → minFreq ≤ seen (data.map (encode m)) q → q ∈ l) ∨ (1 ≤ l.length ∧ numMerges ≤ l.length) ∨
        m'.next.toNat = 0x7FFE ∨ o.stop l.length = true) :=
  (train_learns hlo (reach_inv hlo hd h) hcap o minFreq numMerges fuel data m' ht).2

/-- Encoding after a training call is encoding before it, followed by the new replacements. -/
theorem encode_extends (m m' : Model) (new : List (Str16 × Str16)) (h1 : m'.table = new.reverse ++ m.table) (h2 : m'.delim = m.delim) (t : Str8) :
    encode m' t = if t = [] then [] else new.foldl (fun s e => replaceAll s e.1 e.2) (encode m t) := by
  unfold encode
  split
  · rfl
  · rw [h1, h2, List.reverse_append, List.reverse_reverse, List.foldl_append]

theorem fold_length (l : List (Str16 × Str16)) (h : ∀ e ∈ l, e.2.length ≤ e.1.length) :
    ∀ s : Str16, (l.foldl (fun s e => replaceAll s e.1 e.2) s).length ≤ s.length := by
  induction l with
  | nil => intro s; exact le_refl _
  | cons e l ih =>
    intro s
    rw [List.foldl_cons]
    exact le_trans (ih (fun e he => h e (List.mem_cons_of_mem _ he)) _) (length_replaceAll _ _ _ (h e (by simp)))

/-- **C127, encoding never lengthens**: a text of `n` characters becomes at most `n + 2` codes (the two delimiters). -/
theorem C127_at_most (delim : BitVec 16) (hlo : 127 ≤ delim.toNat) (hd : delim.toNat < 0x7FFD) (m : Model) (h : Reach delim m) (t : Str8) :
    (encode m t).length ≤ t.length + 2 := by
  unfold encode
  split
  · simp
  · refine le_trans (fold_length _ ?_ _) (by simp)
    intro e he
    obtain ⟨a, b, k, rfl, -⟩ := (reach_inv hlo hd h).shape e (List.mem_reverse.mp he)
    simp

/-- **C127, more training never lengthens**: after a further training call no text has a longer encoding than before. -/
theorem C127_shorter (delim : BitVec 16) (hlo : 127 ≤ delim.toNat) (hd : delim.toNat < 0x7FFD) (m : Model) (h : Reach delim m)
    (hcap : (bumpNext m.table m.next).toNat < 0x7FFE) (o : Oracle) (minFreq numMerges fuel : Nat) (data : List Str8) (m' : Model)
    (ht : train o minFreq numMerges fuel m data = some m') (t : Str8) : (encode m' t).length ≤ (encode m t).length := by
  obtain ⟨hi, l, h1, -, h3, -⟩ := train_learns hlo (reach_inv hlo hd h) hcap o minFreq numMerges fuel data m' ht
  rw [encode_extends m m' _ h1 (by rw [hi.delim_eq, (reach_inv hlo hd h).delim_eq])]
  split
  · simp
  · refine fold_length _ ?_ _
    intro e he
    unfold learned at he
    obtain ⟨i, hi, rfl⟩ := List.mem_mapIdx.mp he
    simp

/-- **C127, a learned pair disappears**: no pair that has a code is left in any encoded text. -/
theorem C127_replaced (delim : BitVec 16) (hlo : 127 ≤ delim.toNat) (hd : delim.toNat < 0x7FFD) (m : Model) (h : Reach delim m) (t : Str8) :
    ∀ e ∈ m.table, ¬ e.1 <:+: encode m t :=
  encode_absent (reach_inv hlo hd h) t

/-- The compression rate does not get worse by training. -/
theorem C127_rate (delim : BitVec 16) (hlo : 127 ≤ delim.toNat) (hd : delim.toNat < 0x7FFD) (m : Model) (h : Reach delim m)
    (hcap : (bumpNext m.table m.next).toNat < 0x7FFE) (o : Oracle) (minFreq numMerges fuel : Nat) (data : List Str8) (m' : Model)
    (ht : train o minFreq numMerges fuel m data = some m') (texts : List Str8) (total : Nat) :
    compressionRate m' texts total ≤ compressionRate m texts total := by
  unfold compressionRate
  dsimp only
  generalize (if total < 1 then (texts.map List.length).sum else total) = n
  split
  · exact le_refl _
  · refine div_le_div_of_nonneg_right ?_ (by positivity)
    norm_cast
    refine List.sum_le_sum ?_
    intro t _
    exact C127_shorter delim hlo hd m h hcap o minFreq numMerges fuel data m' ht t

/-! ### how much one training call can compress -/

/-- Encoders reached with `n` training calls. -/
inductive Trained (delim : BitVec 16) : Nat → Model → Prop
  | fresh : Trained delim 0 (new delim)
  | train {n m m' o minFreq numMerges fuel data} : Trained delim n m → (bumpNext m.table m.next).toNat < 0x7FFE →
      train o minFreq numMerges fuel m data = some m' → Trained delim (n + 1) m'
  | reload {n m} : Trained delim n m → Trained delim n ⟨m.table, m.delim, m.delim + 1⟩

theorem trained_reach {delim : BitVec 16} {n : Nat} {m : Model} (h : Trained delim n m) : Reach delim m := by
  induction h with
  | fresh => exact .fresh
  | train _ hcap ht ih => exact .train ih hcap ht
  | reload _ ih => exact .reload ih

/-- The number of characters that each code stands for. -/
structure Weighs (m : Model) (w : BitVec 16 → Nat) (bound : Nat) : Prop where
  small : ∀ x, w x ≤ bound
  plain : ∀ x, (∀ e ∈ m.table, e.2 ≠ [x]) → w x = 1
  code : ∀ e ∈ m.table, ∀ k, e.2 = [k] → w k = (e.1.map w).sum

theorem replaced_weight {q s out : Str16} {c : BitVec 16} (h : Replaced q [c] s out) (w : BitVec 16 → Nat) (hw : w c = (q.map w).sum) :
    (out.map w).sum = (s.map w).sum := by
  induction h with
  | done => rfl
  | hit t out _ ih => simp only [List.map_append, List.sum_append, List.map_cons, List.map_nil, List.sum_cons, List.sum_nil, hw, ih]; omega
  | copy x s out _ _ ih => simp only [List.map_cons, List.sum_cons, ih]

theorem encode_weight {delim : BitVec 16} {m : Model} (h : Inv delim m) (w : BitVec 16 → Nat) (b : Nat) (hw : Weighs m w b) (t : Str8) (ht : t ≠ []) :
    ((encode m t).map w).sum = ((framed m.delim t).map w).sum := by
  rw [encode_eq m t ht]
  have gen : ∀ l : List (Str16 × Str16), (∀ e ∈ l, e ∈ m.table) → ∀ s : Str16, ((l.foldl (fun s e => replaceAll s e.1 e.2) s).map w).sum = (s.map w).sum := by
    intro l
    induction l with
    | nil => intro _ s; rfl
    | cons e l ih =>
      intro hl s
      rw [List.foldl_cons, ih fun e he => hl e (List.mem_cons_of_mem _ he)]
      obtain ⟨x, y, k, rfl, -⟩ := h.shape e (hl e (by simp))
      exact replaced_weight (C09_replaced s [x, y] [k] (by simp)) w (hw.code ([x, y], [k]) (hl _ List.mem_cons_self) k rfl)
  exact gen _ (fun e he => List.mem_reverse.mp he) _

theorem trained_weighs {delim : BitVec 16} (hlo : 127 ≤ delim.toNat) (hd : delim.toNat < 0x7FFD) {n : Nat} {m : Model} (h : Trained delim n m) :
    ∃ w, Weighs m w (2 ^ n) := by
  induction h with
  | fresh => exact ⟨fun _ => 1, by simp, by simp, by simp [new]⟩
  | @train n m m' o minFreq numMerges fuel data hm hcap ht ih =>
    obtain ⟨w, hw⟩ := ih
    have hi := reach_inv hlo hd (trained_reach hm)
    obtain ⟨hi', l, h1, h2, h3, h4, h5, -⟩ := train_learns hlo hi hcap o minFreq numMerges fuel data m' ht
    have hlet := bumpNext_letters m.table m.next
    have hge := bumpNext_ge m.table m.next
    have hgt := hi.next_gt
    have hcodes : ∀ e ∈ m.table, ∀ k, e.2 = [k] → k < bumpNext m.table m.next := by
      intro e he k hk
      obtain ⟨a, b, k', rfl, -, h1, -⟩ := hi.shape e he
      simp only [List.cons.injEq, and_true] at hk
      subst hk
      exact bumpNext_gt m.table m.next _ he _ rfl (by rw [BitVec.lt_def]; simp; omega)
    have hletters := encode_letters hlo hi (bumpNext m.table m.next) (by rw [BitVec.lt_def, BitVec.le_def] at *; omega) hcodes
    generalize bumpNext m.table m.next = first at *
    -- the new code number `i`
    let w' : BitVec 16 → Nat := fun x =>
      if first.toNat ≤ x.toNat ∧ x.toNat < first.toNat + l.length then w (l.getD (x.toNat - first.toNat) (0, 0)).1 + w (l.getD (x.toNat - first.toNat) (0, 0)).2
      else w x
    have hold : ∀ x, x < first ∨ 0x7FFE ≤ x.toNat → w' x = w x := by
      intro x hx
      refine if_neg ?_
      rw [BitVec.lt_def] at hx
      omega
    have hbig : 2 ^ n ≤ 2 ^ (n + 1) := Nat.pow_le_pow_right (by decide) (by omega)
    refine ⟨w', ?_, ?_, ?_⟩
    · intro x
      show (if _ then _ else _) ≤ _
      split
      · have a1 := hw.small (l.getD (x.toNat - first.toNat) (0, 0)).1
        have a2 := hw.small (l.getD (x.toNat - first.toNat) (0, 0)).2
        have : 2 ^ (n + 1) = 2 ^ n + 2 ^ n := by rw [Nat.pow_succ]; omega
        rw [this]
        exact Nat.add_le_add a1 a2
      · exact le_trans (hw.small x) hbig
    · intro x hx
      rw [h1] at hx
      have hnew : ¬ (first.toNat ≤ x.toNat ∧ x.toNat < first.toNat + l.length) := by
        rintro ⟨a1, a2⟩
        have hin : ([l[x.toNat - first.toNat].1, l[x.toNat - first.toNat].2], [x]) ∈ learned first l := by
          unfold learned
          refine List.mem_mapIdx.mpr ⟨x.toNat - first.toNat, by omega, ?_⟩
          congr 2
          apply BitVec.eq_of_toNat_eq
          rw [BitVec.toNat_add, BitVec.toNat_ofNat]
          have := x.isLt
          omega
        exact hx _ (List.mem_append_left _ (List.mem_reverse.mpr hin)) rfl
      show (if _ then _ else _) = _
      rw [if_neg hnew]
      exact hw.plain x fun e he => hx e (List.mem_append_right _ he)
    · intro e he k hk
      rw [h1, List.mem_append, List.mem_reverse] at he
      rcases he with he | he
      · unfold learned at he
        obtain ⟨i, hil, rfl⟩ := List.mem_mapIdx.mp he
        simp only [List.cons.injEq, and_true] at hk
        have hkn : k.toNat = first.toNat + i := by
          rw [← hk, BitVec.toNat_add, BitVec.toNat_ofNat]
          omega
        have hp : ∀ x, (x = l[i].1 ∨ x = l[i].2) → w' x = w x := by
          intro x hx
          apply hold
          have hs := (h5 l[i] (List.getElem_mem _)).1
          have : ∃ t ∈ data, l[i] ∈ (encode m t).zip (encode m t).tail := by
            by_contra hno
            have hz : ∀ d : List Str16, (∀ s ∈ d, l[i] ∉ s.zip s.tail) → seen d l[i] = 0 := by
              intro d
              induction d with
              | nil => intro _; rfl
              | cons s d ih =>
                intro hz
                have h0 := ih fun s hs => hz s (List.mem_cons_of_mem _ hs)
                unfold seen at h0 ⊢
                rw [List.map_cons, List.sum_cons, h0, List.count_eq_zero.mpr (hz s (by simp))]
            have := hz (data.map (encode m)) (by
              intro s hs hin
              obtain ⟨t, ht, rfl⟩ := List.mem_map.mp hs
              exact hno ⟨t, ht, hin⟩)
            omega
          obtain ⟨t, -, hin⟩ := this
          refine hletters t x ((zip_infix _ l[i].1 l[i].2 hin).subset ?_)
          simpa using hx
        show (if _ then _ else _) = _
        rw [if_pos (by omega)]
        have hi' : k.toNat - first.toNat = i := by omega
        rw [hi', List.getD_eq_getElem?_getD, List.getElem?_eq_getElem hil, Option.getD_some]
        simp only [List.map_cons, List.map_nil, List.sum_cons, List.sum_nil, hp _ (Or.inl rfl), hp _ (Or.inr rfl), Nat.add_zero]
      · rw [hold k (Or.inl (hcodes e he k hk)), hw.code e he k hk]
        congr 1
        apply List.map_congr_left
        intro x hx
        refine (hold x ?_).symm
        by_cases hc : x.toNat < 0x7FFF
        · exact Or.inl (hlet e he x hx hc)
        · exact Or.inr (by omega)
  | reload _ ih =>
    obtain ⟨w, hw⟩ := ih
    exact ⟨w, hw.small, hw.plain, hw.code⟩

/-- **C127, the limit of one training call**: after `n` training calls a code stands for at most `2^n` characters, so a text of `k` characters keeps at least
`(k + 2) / 2^n` codes, however often it was in the training data. -/
theorem C127_at_least (delim : BitVec 16) (hlo : 127 ≤ delim.toNat) (hd : delim.toNat < 0x7FFD) (n : Nat) (m : Model) (h : Trained delim n m) (t : Str8)
    (ht : t ≠ []) : t.length + 2 ≤ 2 ^ n * (encode m t).length := by
  obtain ⟨w, hw⟩ := trained_weighs hlo hd h
  have hr := trained_reach h
  have hi := reach_inv hlo hd hr
  have h1 := encode_weight hi w _ hw t ht
  have h2 : ((framed m.delim t).map w).sum = t.length + 2 := by
    have hone : ∀ x ∈ framed m.delim t, w x = 1 := by
      intro x hx
      refine hw.plain x ?_
      rintro e he rfl'
      obtain ⟨hc, -⟩ := C11_codes_partial delim hlo hd m hr
      obtain ⟨k, hk, hk1, hk2, hk3⟩ := hc e he
      rw [hk] at rfl'
      simp only [List.cons.injEq, and_true] at rfl'
      subst rfl'
      unfold framed at hx
      rw [hi.delim_eq] at hx
      simp only [List.mem_append, List.mem_singleton, List.mem_map] at hx
      rcases hx with (rfl | ⟨c, -, hc⟩) | rfl
      · simp at hk1
      · exact hk3 c hc.symm
      · simp at hk1
    have : ∀ l : Str16, (∀ x ∈ l, w x = 1) → (l.map w).sum = l.length := by
      intro l
      induction l with
      | nil => intro _; rfl
      | cons x l ih =>
        intro hl
        rw [List.map_cons, List.sum_cons, hl x (by simp), ih fun x hx => hl x (List.mem_cons_of_mem _ hx), List.length_cons]
        omega
    rw [this _ hone]
    simp [framed]
  have h3 : ∀ l : Str16, (l.map w).sum ≤ 2 ^ n * l.length := by
    intro l
    induction l with
    | nil => simp
    | cons x l ih =>
      rw [List.map_cons, List.sum_cons, List.length_cons, Nat.mul_succ]
      have := hw.small x
      omega
  have := h3 (encode m t)
  omega

/-- **C127, the compression rate of a first training** is at least one half, whatever the texts. -/
theorem C127_rate_limit (delim : BitVec 16) (hlo : 127 ≤ delim.toNat) (hd : delim.toNat < 0x7FFD) (n : Nat) (m : Model) (h : Trained delim n m)
    (texts : List Str8) (hne : ∃ t ∈ texts, t ≠ []) : 1 / 2 ^ n ≤ compressionRate m texts 0 := by
  unfold compressionRate
  simp only [show (0 : Nat) < 1 from Nat.one_pos, if_true]
  have hpos : 0 < (texts.map List.length).sum := by
    obtain ⟨t, ht, hn⟩ := hne
    exact lt_of_lt_of_le (List.length_pos_iff.mpr hn) (List.single_le_sum (fun x _ => Nat.zero_le x) _ (List.mem_map.mpr ⟨t, ht, rfl⟩))
  rw [if_neg (by omega), div_le_div_iff₀ (by positivity) (by exact_mod_cast hpos)]
  norm_cast
  rw [Nat.one_mul]
  clear hpos hne
  induction texts with
  | nil => simp
  | cons t l ih =>
    rw [List.map_cons, List.sum_cons, List.map_cons, List.sum_cons]
    by_cases ht : t = []
    · subst ht
      have he : encode m [] = [] := by simp [encode]
      rw [he]
      simp only [List.length_nil, Nat.zero_add]
      exact ih
    · have := C127_at_least delim hlo hd n m h t ht
      nlinarith

/-- **C127 for files**: a new encoder trained on a file or a folder is the one that `train` makes from the tokens of the files, with pairs seen at least twice and
no limit. -/
theorem C127_files (o : Oracle) (fuel : Nat) (delim : BitVec 16) (files : List Str8) :
    trainOnFiles o fuel (new delim) files = train o 2 (2 ^ 64 - 1) fuel (new delim) (files.flatMap Tokenizer.tokens) := by
  unfold trainOnFiles filesVocab train
  have : (fun c => Tokenizer.fileTokens 262144 (by decide) c) = Tokenizer.tokens := by
    funext c
    exact Tokenizer.C14_file _ _ c
  rw [show files.flatMap (Tokenizer.fileTokens 262144 (by decide)) = files.flatMap Tokenizer.tokens from congrArg (fun f => files.flatMap f) this]
  rfl

/-! ### what does not hold -/

/-- **Codes are not merged further**: after training on two copies of "ab" without limits the pair of codes for it is still there twice, although pairs that occur
twice are to get a code. -/
theorem C127_nested_violated : ∃ m', train plainOracle 2 (2 ^ 64 - 1) 100 (new 256) [[97, 98], [97, 98]] = some m' ∧
    2 ≤ seen ([[97, 98], [97, 98]].map (encode m')) (257, 259) :=
  ⟨⟨[([98, 256], [259]), ([97, 98], [258]), ([256, 97], [257])], 256, 260⟩, by decide +kernel, by decide +kernel⟩

/-- **`num_merges = 0` is not respected**: one pair is learned. -/
theorem C127_zero_violated : ∃ m', train plainOracle 2 0 100 (new 256) [[97, 98], [97, 98]] = some m' ∧ m'.table.length = 1 :=
  ⟨⟨[([256, 97], [257])], 256, 258⟩, by decide +kernel, by decide +kernel⟩

/-- **Training on a file a second time destroys the encoder**: the words are counted as encoded by the codes of the first training, these codes are then dropped, and
the new codes never apply: every text is then left as it is. -/
theorem C127_file_violated : ∃ (file : Str8) (m1 m2 : Model), trainOnFiles plainOracle 100 (new 256) [file] = some m1 ∧
    trainOnFiles plainOracle 100 m1 [file] = some m2 ∧ m2.table ≠ [] ∧ (∀ t, t ≠ [] → encode m2 t = framed 256 t) ∧
    ∃ t, (encode m1 t).length < (framed 256 t).length := by
  have e1 : ∀ m, trainOnFiles plainOracle 100 m [[97, 98, 32, 97, 98, 32, 97, 98]] =
      (buildVocab m (Tokenizer.tokens [97, 98, 32, 97, 98, 32, 97, 98])).bind (trainOnVocab plainOracle 100 m) := by
    intro m
    unfold trainOnFiles filesVocab
    rw [List.flatMap_cons, List.flatMap_nil, List.append_nil, Tokenizer.C14_file]
  let m1 : Model := ⟨[([32, 97], [260]), ([256, 32], [259]), ([98, 256], [258]), ([97, 98], [257])], 256, 261⟩
  let m2 : Model := ⟨[([259, 257], [262]), ([257, 256], [261])], 256, 263⟩
  refine ⟨[97, 98, 32, 97, 98, 32, 97, 98], m1, m2, ?_, ?_, by simp [m2], ?_, [97, 98], by decide +kernel⟩
  · rw [e1]; decide +kernel
  · rw [e1]; decide +kernel
  · intro t ht
    have hno : ∀ x : BitVec 16, x = 257 ∨ x = 259 → x ∉ framed 256 t := by
      intro x hx h
      unfold framed at h
      simp only [List.mem_append, List.mem_singleton, List.mem_map] at h
      rcases h with (rfl | ⟨c, -, rfl⟩) | rfl
      · simp at hx
      · have : ∀ c : BitVec 8, ¬ (widen c = 257 ∨ widen c = 259) := by decide +kernel
        exact this c hx
      · simp at hx
    rw [encode_eq m2 t ht]
    show replaceAll (replaceAll (framed 256 t) [257, 256] [261]) [259, 257] [262] = _
    rw [C09_absent (framed 256 t) _ _ (by simp) fun h => hno 257 (Or.inl rfl) (h.subset (by simp)),
      C09_absent _ _ _ (by simp) fun h => hno 259 (Or.inr rfl) (h.subset (by simp))]

-- Non-vacuity: two training calls; the second one merges codes of the first.
example : ∃ m1 m2, train plainOracle 2 (2 ^ 64 - 1) 100 (new 256) [[97, 98], [97, 98]] = some m1 ∧
    train plainOracle 2 (2 ^ 64 - 1) 100 m1 [[97, 98], [97, 98]] = some m2 ∧ Trained 256 2 m2 ∧ (encode m1 [97, 98]).length = 2 ∧
    (encode m2 [97, 98]).length = 1 := by
  let m1 : Model := ⟨[([98, 256], [259]), ([97, 98], [258]), ([256, 97], [257])], 256, 260⟩
  have h1 : train plainOracle 2 (2 ^ 64 - 1) 100 (new 256) [[97, 98], [97, 98]] = some m1 := by decide +kernel
  let m2 : Model := ⟨[([257, 259], [260]), ([98, 256], [259]), ([97, 98], [258]), ([256, 97], [257])], 256, 261⟩
  have h2 : train plainOracle 2 (2 ^ 64 - 1) 100 m1 [[97, 98], [97, 98]] = some m2 := by decide +kernel
  exact ⟨m1, m2, h1, h2, .train (.train .fresh (by decide) h1) (by decide) h2, by decide +kernel, by decide +kernel⟩

end Verif.Bpe
