import Verif.Lemmas.BpeLearn

namespace Verif.Bpe
open Verif.ReplaceAll

/-! ### pairs that were replaced do not come back -/

theorem replaced_head {q s : Str16} {c y : BitVec 16} {o : Str16} (h : Replaced q [c] s (y :: o)) (hy : y ≠ c) : ∃ s', s = y :: s' := by
  generalize hout : y :: o = out at h
  cases h with
  | done => simp at hout
  | hit t out _ =>
    simp only [List.singleton_append, List.cons.injEq] at hout
    exact absurd hout.1 hy
  | copy x s out _ _ =>
    simp only [List.cons.injEq] at hout
    exact ⟨s, by rw [hout.1]⟩

theorem infix_cons_iff' (p : Str16) (x : BitVec 16) (s : Str16) : p <:+: x :: s ↔ p <+: x :: s ∨ p <:+: s := List.infix_cons_iff

theorem replaced_gone {a b c : BitVec 16} {s out : Str16} (h : Replaced [a, b] [c] s out) (h1 : c ≠ a) (h2 : c ≠ b) : ¬ [a, b] <:+: out := by
  induction h with
  | done => simp
  | hit t out _ ih =>
    rw [List.singleton_append, infix_cons_iff']
    rintro (⟨r, hr⟩ | h)
    · simp only [List.cons_append, List.cons.injEq] at hr
      exact h1 hr.1.symm
    · exact ih h
  | copy x s out hn hr ih =>
    rw [infix_cons_iff']
    rintro (⟨r, hr'⟩ | h)
    · simp only [List.cons_append, List.nil_append, List.cons.injEq] at hr'
      rw [← hr'.2] at hr
      obtain ⟨s', rfl⟩ := replaced_head hr h2.symm
      exact hn ⟨s', by rw [hr'.1]; rfl⟩
    · exact ih h

theorem replaced_keeps {a b c : BitVec 16} {q s out : Str16} (h : Replaced q [c] s out) (h1 : c ≠ a) (h2 : c ≠ b) :
    ¬ [a, b] <:+: s → ¬ [a, b] <:+: out := by
  induction h with
  | done => simp
  | hit t out _ ih =>
    intro hs
    rw [List.singleton_append, infix_cons_iff']
    rintro (⟨r, hr⟩ | h)
    · simp only [List.cons_append, List.cons.injEq] at hr
      exact h1 hr.1.symm
    · exact ih (fun h' => hs (h'.trans (List.suffix_append _ _).isInfix)) h
  | copy x s out hn hr ih =>
    intro hs
    rw [infix_cons_iff']
    rintro (⟨r, hr'⟩ | h)
    · simp only [List.cons_append, List.nil_append, List.cons.injEq] at hr'
      rw [← hr'.2] at hr
      obtain ⟨s', rfl⟩ := replaced_head hr h2.symm
      exact hs ⟨[], s', by rw [hr'.1]; rfl⟩
    · exact ih (fun h' => hs (h'.trans (List.suffix_cons _ _).isInfix)) h

theorem zip_infix (s : Str16) (a b : BitVec 16) (h : (a, b) ∈ s.zip s.tail) : [a, b] <:+: s := by
  induction s with
  | nil => simp at h
  | cons x s ih =>
    cases s with
    | nil => simp at h
    | cons y s =>
      rw [List.tail_cons, List.zip_cons_cons, List.mem_cons] at h
      rcases h with h | h
      · simp only [Prod.mk.injEq] at h
        exact ⟨[], s, by rw [h.1, h.2]; rfl⟩
      · exact (ih h).trans (List.suffix_cons _ _).isInfix

/-! ### the invariant of trained tables -/

/-- Tables are ordered by descending code; every code stands for two characters, neither of which is a later code. -/
structure Inv (delim : BitVec 16) (m : Model) : Prop where
  delim_eq : m.delim = delim
  next_gt : delim < m.next
  shape : ∀ e ∈ m.table, ∃ a b k, e = ([a, b], [k]) ∧ delim < k ∧ k.toNat < 0x7FFE ∧ (a < k ∨ 0x7FFE ≤ a.toNat) ∧ (b < k ∨ 0x7FFE ≤ b.toNat)
  desc : m.table.Pairwise (fun e e' => gt16 e.2 e'.2 = true)
  keys : (m.table.map Prod.fst).Nodup

theorem gt16_one (a b : BitVec 16) : gt16 [a] [b] = true ↔ b < a := by
  unfold gt16
  by_cases h : b < a
  · simp [h]
  · by_cases h' : a < b <;> simp [h, h', gt16]

/-- The string that is encoded. -/
def framed (delim : BitVec 16) (t : Str8) : Str16 := [delim] ++ t.map widen ++ [delim]

theorem encode_eq (m : Model) (t : Str8) (ht : t ≠ []) :
    encode m t = m.table.reverse.foldl (fun s e => replaceAll s e.1 e.2) (framed m.delim t) := by
  unfold encode framed
  rw [if_neg ht]

theorem fold_letters (l : List (Str16 × Str16)) : ∀ (s : Str16) (x : BitVec 16), x ∈ l.foldl (fun s e => replaceAll s e.1 e.2) s →
    x ∈ s ∨ ∃ e ∈ l, x ∈ e.2 := by
  induction l with
  | nil => intro s x h; exact Or.inl h
  | cons e l ih =>
    intro s x h
    rw [List.foldl_cons] at h
    rcases ih _ x h with h | ⟨e', he', h⟩
    · rcases mem_replaceAll _ _ _ x h with h | h
      · exact Or.inl h
      · exact Or.inr ⟨e, by simp, h⟩
    · exact Or.inr ⟨e', List.mem_cons_of_mem _ he', h⟩

theorem widen_range : ∀ c : BitVec 8, (widen c).toNat ≤ 127 ∨ 0xFF80 ≤ (widen c).toNat := by decide +kernel

/-- Characters of encoded texts: below every new code, or far above. -/
theorem encode_letters {delim : BitVec 16} (hlo : 127 ≤ delim.toNat) {m : Model} (h : Inv delim m) (first : BitVec 16) (hf : delim < first)
    (hcodes : ∀ e ∈ m.table, ∀ k, e.2 = [k] → k < first) (t : Str8) (x : BitVec 16) (hx : x ∈ encode m t) : x < first ∨ 0x7FFE ≤ x.toNat := by
  by_cases ht : t = []
  · subst ht
    simp [encode] at hx
  · rw [encode_eq m t ht] at hx
    rcases fold_letters _ _ x hx with hx | ⟨e, he, hx⟩
    · unfold framed at hx
      rw [h.delim_eq] at hx
      simp only [List.mem_append, List.mem_singleton, List.mem_map] at hx
      rcases hx with (rfl | ⟨c, -, rfl⟩) | rfl
      · exact Or.inl hf
      · rcases widen_range c with h1 | h1
        · left
          rw [BitVec.lt_def] at *
          omega
        · right
          omega
      · exact Or.inl hf
    · have he := List.mem_reverse.mp he
      obtain ⟨a, b, k, rfl, -⟩ := h.shape e he
      simp only [List.mem_singleton] at hx
      subst hx
      exact Or.inl (hcodes _ he x rfl)

theorem fold_absent (l : List (Str16 × Str16)) (hp : l.Pairwise (fun e e' => gt16 e'.2 e.2 = true))
    (hs : ∀ e ∈ l, ∃ a b k, e = ([a, b], [k]) ∧ k.toNat < 0x7FFE ∧ (a < k ∨ 0x7FFE ≤ a.toNat) ∧ (b < k ∨ 0x7FFE ≤ b.toNat)) :
    ∀ s : Str16, ∀ e ∈ l, ¬ e.1 <:+: l.foldl (fun s e => replaceAll s e.1 e.2) s := by
  have keep : ∀ (l : List (Str16 × Str16)) (a b k : BitVec 16), k.toNat < 0x7FFE → (a < k ∨ 0x7FFE ≤ a.toNat) → (b < k ∨ 0x7FFE ≤ b.toNat) →
      (∀ e ∈ l, ∃ x y j, e = ([x, y], [j]) ∧ j.toNat < 0x7FFE ∧ k < j) → ∀ s, ¬ [a, b] <:+: s → ¬ [a, b] <:+: l.foldl (fun s e => replaceAll s e.1 e.2) s := by
    intro l
    induction l with
    | nil => intro a b k _ _ _ _ s hs; exact hs
    | cons e l ih =>
      intro a b k hk ha hb hl s hs
      obtain ⟨x, y, j, rfl, hj, hkj⟩ := hl e (by simp)
      rw [List.foldl_cons]
      refine ih a b k hk ha hb (fun e he => hl e (List.mem_cons_of_mem _ he)) _ ?_
      refine replaced_keeps (C09_replaced s [x, y] [j] (by simp)) ?_ ?_ hs
      · rintro rfl
        rw [BitVec.lt_def] at *
        omega
      · rintro rfl
        rw [BitVec.lt_def] at *
        omega
  induction l with
  | nil => intro s e he; simp at he
  | cons e0 l ih =>
    intro s e he
    rw [List.pairwise_cons] at hp
    obtain ⟨a, b, k, rfl, hk, ha, hb⟩ := hs e0 (by simp)
    rw [List.foldl_cons]
    rcases List.mem_cons.mp he with rfl | he
    · refine keep l a b k hk ha hb ?_ _ (replaced_gone (C09_replaced s [a, b] [k] (by simp)) ?_ ?_)
      · intro e he
        obtain ⟨x, y, j, rfl, hj, -⟩ := hs e (List.mem_cons_of_mem _ he)
        exact ⟨x, y, j, rfl, hj, (gt16_one _ _).mp (hp.1 _ he)⟩
      · rintro rfl
        rw [BitVec.lt_def] at *
        omega
      · rintro rfl
        rw [BitVec.lt_def] at *
        omega
    · exact ih hp.2 (fun e he => hs e (List.mem_cons_of_mem _ he)) _ e he

/-- No pattern of the table occurs in an encoded text. -/
theorem encode_absent {delim : BitVec 16} {m : Model} (h : Inv delim m) (t : Str8) : ∀ e ∈ m.table, ¬ e.1 <:+: encode m t := by
  intro e he
  by_cases ht : t = []
  · subst ht
    obtain ⟨a, b, k, rfl, -⟩ := h.shape e he
    simp [encode]
  · rw [encode_eq m t ht]
    refine fold_absent _ (List.pairwise_reverse.mpr h.desc) ?_ _ e (List.mem_reverse.mpr he)
    intro e he
    obtain ⟨a, b, k, r, -, h1, h2, h3⟩ := h.shape e (List.mem_reverse.mp he)
    exact ⟨a, b, k, r, h1, h2, h3⟩

/-! ### sorting -/

theorem insert_between (r : Str16 × Str16 → Str16 × Str16 → Prop) [DecidableRel r] (x : Str16 × Str16) (a b : List (Str16 × Str16))
    (ha : ∀ y ∈ a, ¬ r x y) (hb : ∀ y ∈ b, r x y) : List.orderedInsert r x (a ++ b) = a ++ x :: b := by
  induction a with
  | nil =>
    cases b with
    | nil => rfl
    | cons y b => rw [List.nil_append, List.orderedInsert, if_pos (hb y (by simp)), List.nil_append]
  | cons y a ih =>
    rw [List.cons_append, List.orderedInsert, if_neg (ha y (by simp)), ih (fun y hy => ha y (List.mem_cons_of_mem _ hy)), List.cons_append]

theorem sort_new (table new : List (Str16 × Str16)) (hd : table.Pairwise (fun e e' => gt16 e.2 e'.2 = true))
    (ha : new.Pairwise (fun e e' => gt16 e'.2 e.2 = true)) (hb : ∀ e ∈ table, ∀ e' ∈ new, gt16 e'.2 e.2 = true)
    (hasym : ∀ e ∈ table, ∀ e' ∈ table, gt16 e.2 e'.2 = true → gt16 e'.2 e.2 = false) :
    sortCodes (table ++ new) = new.reverse ++ table := by
  unfold sortCodes
  have h1 : List.insertionSort (fun a b => gt16 b.2 a.2 = false) new = new.reverse := by
    clear hb
    induction new with
    | nil => rfl
    | cons e new ih =>
      rw [List.pairwise_cons] at ha
      rw [List.insertionSort_cons, ih ha.2, List.reverse_cons]
      have := insert_between (fun a b => gt16 b.2 a.2 = false) e new.reverse [] (by
        intro y hy
        simp [ha.1 y (List.mem_reverse.mp hy)]) (by simp)
      rwa [List.append_nil] at this
  induction table with
  | nil => rw [List.nil_append, h1, List.append_nil]
  | cons e table ih =>
    rw [List.pairwise_cons] at hd
    rw [List.cons_append, List.insertionSort_cons, ih hd.2 (fun e he => hb e (List.mem_cons_of_mem _ he))
      (fun e he e' he' => hasym e (List.mem_cons_of_mem _ he) e' (List.mem_cons_of_mem _ he'))]
    refine insert_between _ e new.reverse table ?_ ?_
    · intro y hy
      simp [hb e (by simp) y (List.mem_reverse.mp hy)]
    · intro y hy
      exact hasym e (by simp) y (List.mem_cons_of_mem _ hy) (hd.1 y hy)

/-! ### one training -/

theorem bumpNext_letters (table : List (Str16 × Str16)) : ∀ next, ∀ e ∈ table, ∀ x ∈ e.1, x.toNat < 0x7FFF → x < bumpNext table next := by
  have hmax : ∀ (s : Str16) (x : BitVec 16), x ∈ s → x.toNat < 0x7FFF → x ≤ findMax16 s := by
    intro s
    unfold findMax16
    have gen : ∀ (s : Str16) (m : BitVec 16), m ≤ s.foldl (fun m c => if m < c ∧ c < 0x7FFF#16 then c else m) m ∧
        ∀ x ∈ s, x.toNat < 0x7FFF → x ≤ s.foldl (fun m c => if m < c ∧ c < 0x7FFF#16 then c else m) m := by
      intro s
      induction s with
      | nil => intro m; exact ⟨BitVec.le_refl _, by simp⟩
      | cons c s ih =>
        intro m
        rw [List.foldl_cons]
        obtain ⟨h1, h2⟩ := ih (if m < c ∧ c < 0x7FFF#16 then c else m)
        constructor
        · refine BitVec.le_trans ?_ h1
          split
          · rename_i h; exact BitVec.le_of_lt h.1
          · exact BitVec.le_refl _
        · intro x hx hlt
          rcases List.mem_cons.mp hx with rfl | hx
          · refine BitVec.le_trans ?_ h1
            split
            · exact BitVec.le_refl _
            · rename_i h
              have hx : x < 0x7FFF#16 := by rw [BitVec.lt_def]; simpa using hlt
              exact BitVec.not_lt.mp fun hh => h ⟨hh, hx⟩
          · exact h2 x hx hlt
    exact fun x hx => (gen s 0#16).2 x hx
  induction table with
  | nil => intro next e he; simp at he
  | cons y l ih =>
    intro next e he x hx hlt
    rcases List.mem_cons.mp he with rfl | he
    · have hge : bumpNext (e :: l) next = bumpNext l (
          let a := findMax16 e.1
          let b := findMax16 e.2
          let m := (if a < b then b else a) + 1
          if m < next then next else m) := rfl
      rw [hge]
      have h1 := hmax e.1 x hx hlt
      have h2 := findMax16_lt e.1
      have h3 := findMax16_lt e.2
      have h4 := bumpNext_ge l (
          let a := findMax16 e.1
          let b := findMax16 e.2
          let m := (if a < b then b else a) + 1
          if m < next then next else m)
      dsimp only at *
      generalize findMax16 e.1 = a at *
      generalize findMax16 e.2 = b at *
      have h5 : x < (if a < b then b else a) + 1 := by
        rw [BitVec.le_def] at h1
        split
        · rename_i hc
          rw [BitVec.lt_def] at *
          rw [BitVec.toNat_add]
          simp
          omega
        · rw [BitVec.lt_def, BitVec.toNat_add]
          simp
          omega
      generalize (if a < b then b else a) + 1 = n at *
      have h6 : x < if n < next then next else n := by
        split
        · rename_i hc; exact BitVec.lt_trans h5 hc
        · exact h5
      rw [BitVec.lt_def, BitVec.le_def] at *
      omega
    · exact ih _ e he x hx hlt

/-- The pair of a vocabulary entry. -/
def pr (e : Str16 × Nat) : BitVec 16 × BitVec 16 := (e.1.getD 0 0, e.1.getD 1 0)

theorem pr_eq (e : Str16 × Nat) (h : e.1.length = 2) : e.1 = [(pr e).1, (pr e).2] := by
  obtain ⟨k, n⟩ := e
  match k, h with
  | [a, b], _ => rfl

theorem learned_map (first : BitVec 16) (l : List (Str16 × Nat)) (h : ∀ e ∈ l, e.1.length = 2) :
    l.mapIdx (fun i e => (e.1, [first + BitVec.ofNat 16 i])) = learned first (l.map pr) := by
  unfold learned
  apply List.ext_getElem
  · simp
  · intro i h1 h2
    simp only [List.getElem_mapIdx, List.getElem_map]
    rw [← pr_eq _ (h _ (List.getElem_mem _))]

theorem learned_code (first : BitVec 16) (l : List (BitVec 16 × BitVec 16)) (hn : first.toNat + l.length ≤ 0x7FFE) :
    (∀ e ∈ learned first l, ∃ p ∈ l, ∃ k, e = ([p.1, p.2], [k]) ∧ first ≤ k ∧ k.toNat < 0x7FFE) ∧
      (learned first l).Pairwise (fun e e' => gt16 e'.2 e.2 = true) := by
  have hcode : ∀ i, i < l.length → (first + BitVec.ofNat 16 i).toNat = first.toNat + i := by
    intro i hi
    rw [BitVec.toNat_add, BitVec.toNat_ofNat]
    omega
  constructor
  · intro e he
    unfold learned at he
    obtain ⟨i, hi, rfl⟩ := List.mem_mapIdx.mp he
    refine ⟨l[i], List.getElem_mem _, _, rfl, ?_, ?_⟩
    · rw [BitVec.le_def, hcode i hi]; omega
    · rw [hcode i hi]; omega
  · rw [List.pairwise_iff_getElem]
    intro i j hi hj hij
    unfold learned at hi hj ⊢
    rw [List.length_mapIdx] at hi hj
    simp only [List.getElem_mapIdx]
    rw [gt16_one, BitVec.lt_def, hcode i hi, hcode j hj]
    omega

/-- What one training call learns. -/
theorem train_learns {delim : BitVec 16} (hlo : 127 ≤ delim.toNat) {m : Model} (h : Inv delim m) (hcap : (bumpNext m.table m.next).toNat < 0x7FFE)
    (o : Oracle) (minFreq numMerges fuel : Nat) (data : List Str8) (m' : Model) (ht : train o minFreq numMerges fuel m data = some m') :
    Inv delim m' ∧ ∃ l : List (BitVec 16 × BitVec 16),
      m'.table = (learned (bumpNext m.table m.next) l).reverse ++ m.table ∧ m'.next.toNat = (bumpNext m.table m.next).toNat + l.length ∧
      m'.next.toNat ≤ 0x7FFE ∧ l.Nodup ∧
      (∀ p ∈ l, 0 < seen (data.map (encode m)) p ∧ minFreq ≤ seen (data.map (encode m)) p) ∧
      l.Pairwise (fun p q => seen (data.map (encode m)) q ≤ seen (data.map (encode m)) p) ∧
      (∀ p ∈ l, ∀ q, q ∉ l → seen (data.map (encode m)) q ≤ seen (data.map (encode m)) p) ∧ l.length ≤ max 1 numMerges ∧
      ((∀ q, 0 < seen (data.map (encode m)) q → minFreq ≤ seen (data.map (encode m)) q → q ∈ l) ∨ (1 ≤ l.length ∧ numMerges ≤ l.length) ∨
        m'.next.toNat = 0x7FFE ∨ o.stop l.length = true) := by
  unfold train at ht
  cases hb : buildVocab m data with
  | none => rw [hb] at ht; simp at ht
  | some v =>
    rw [hb, Option.bind_some, fold_mapSet m.table [] (by simpa using h.keys), List.nil_append] at ht
    cases hl : trainLoop o minFreq numMerges fuel 0 v m.table (bumpNext m.table m.next) with
    | none => rw [hl] at ht; simp at ht
    | some r =>
      rw [hl, Option.map_some, Option.some.injEq] at ht
      obtain ⟨⟨hc1, hc2⟩, -⟩ := buildVocab_counts m data v hb
      dsimp only at hc2
      have hge := bumpNext_ge m.table m.next
      have hgt := h.next_gt
      have hcodes : ∀ e ∈ m.table, ∀ k, e.2 = [k] → k < bumpNext m.table m.next := by
        intro e he k hk
        obtain ⟨a, b, k', rfl, -, h1, -⟩ := h.shape e he
        simp only [List.cons.injEq, and_true] at hk
        subst hk
        exact bumpNext_gt m.table m.next _ he _ rfl (by rw [BitVec.lt_def]; simp; omega)
      have hfirst : delim < bumpNext m.table m.next := by
        rw [BitVec.lt_def, BitVec.le_def] at *
        omega
      have hlet := encode_letters hlo h (bumpNext m.table m.next) hfirst hcodes
      generalize bumpNext m.table m.next = first at *
      have hlen : ∀ q n, (q, n) ∈ v → q.length = 2 ∧ ∃ t ∈ data, q ∈ pairs (encode m t) := by
        intro q n hq
        obtain ⟨h1, h2⟩ := (hc2 q n).mp hq
        have : ∃ t ∈ data, q ∈ pairs (encode m t) := by
          by_contra hno
          have : (data.map fun t => (pairs (encode m t)).count q).sum = 0 := by
            have hz : ∀ l : List Str8, (∀ t ∈ l, (pairs (encode m t)).count q = 0) → (l.map fun t => (pairs (encode m t)).count q).sum = 0 := by
              intro l
              induction l with
              | nil => intro _; rfl
              | cons t l ih =>
                intro hz
                rw [List.map_cons, List.sum_cons, hz t (by simp), ih fun t ht => hz t (List.mem_cons_of_mem _ ht)]
            exact hz data fun t ht => List.count_eq_zero.mpr fun hq => hno ⟨t, ht, hq⟩
          omega
        obtain ⟨t, ht, hq⟩ := this
        exact ⟨pairs_length _ q hq, t, ht, hq⟩
      have hseen : ∀ a b, ([a, b], seen (data.map (encode m)) (a, b)) ∈ v ↔ 0 < seen (data.map (encode m)) (a, b) := by
        intro a b
        rw [hc2, seen_eq]
        simp
      have hval : ∀ e ∈ v, e.2 = seen (data.map (encode m)) (pr e) := by
        intro e he
        have h1 := ((hc2 e.1 e.2).mp he).2
        rw [h1]
        conv_lhs => rw [pr_eq e (hlen _ _ he).1]
        rw [seen_eq]
      have hmem : ∀ p, 0 < seen (data.map (encode m)) p → ([p.1, p.2], seen (data.map (encode m)) p) ∈ v := fun p hp => (hseen p.1 p.2).mpr hp
      obtain ⟨l, r1, r2, r3, r4, r5, r6, r7, r8, r9⟩ := loop_learn o minFreq numMerges fuel 0 v m.table first r hl
        ⟨hc1, fun e he => ⟨((hc2 e.1 e.2).mp he).1, Or.inl (hlen _ _ he).1⟩⟩ hcap (by
          intro e he hin
          obtain ⟨c, hc, h1⟩ := List.mem_map.mp hin
          obtain ⟨-, t, -, hq⟩ := hlen _ _ he
          rw [pairs_eq] at hq
          obtain ⟨p, hp, h2⟩ := List.mem_map.mp hq
          refine encode_absent h t c hc ?_
          rw [h1, ← h2]
          exact zip_infix _ _ _ hp) (by
          intro c hc
          obtain ⟨a, b, k, rfl, -⟩ := h.shape c hc
          simp)
      have hl2 : ∀ e ∈ l, e.1.length = 2 := fun e he => (r5 e he).2.1
      rw [learned_map first l hl2] at r1
      obtain ⟨c1, c2⟩ := learned_code first (l.map pr) (by rw [List.length_map]; omega)
      have htable : sortCodes r.1 = (learned first (l.map pr)).reverse ++ m.table := by
        rw [r1]
        refine sort_new m.table _ h.desc c2 ?_ ?_
        · intro e he e' he'
          obtain ⟨a, b, k, rfl, -⟩ := h.shape e he
          obtain ⟨p, -, k', rfl, h2, -⟩ := c1 e' he'
          rw [gt16_one]
          have := hcodes _ he k rfl
          rw [BitVec.lt_def, BitVec.le_def] at *
          omega
        · intro e he e' he' hg
          obtain ⟨a, b, k, rfl, -⟩ := h.shape e he
          obtain ⟨a', b', k', rfl, -⟩ := h.shape e' he'
          rw [gt16_one] at hg
          rw [Bool.eq_false_iff, Ne, gt16_one]
          rw [BitVec.lt_def] at *
          omega
      have hpr : ∀ e ∈ l, ∀ x, (x = (pr e).1 ∨ x = (pr e).2) → x < first ∨ 0x7FFE ≤ x.toNat := by
        intro e he x hx
        obtain ⟨-, t, -, hq⟩ := hlen e.1 e.2 (r5 e he).1
        rw [pairs_eq] at hq
        obtain ⟨p, hp, h2⟩ := List.mem_map.mp hq
        refine hlet t x ?_
        have := zip_infix _ _ _ hp
        rw [h2, pr_eq e (hl2 e he)] at this
        refine this.subset ?_
        simpa using hx
      have hsub : ∀ e ∈ v, ∀ p, pr e = p → e = ([p.1, p.2], seen (data.map (encode m)) p) := by
        intro e he p hp
        rw [← hp]
        exact Prod.ext (pr_eq e (hlen _ _ he).1) (hval e he)
      have hin : ∀ p, 0 < seen (data.map (encode m)) p → (p ∈ l.map pr ↔ ([p.1, p.2], seen (data.map (encode m)) p) ∈ l) := by
        intro p hp
        rw [List.mem_map]
        constructor
        · rintro ⟨e, he, h1⟩
          rw [← hsub e (r5 e he).1 p h1]
          exact he
        · intro h1
          exact ⟨_, h1, rfl⟩
      subst ht
      refine ⟨⟨h.delim_eq, ?_, ?_, ?_, ?_⟩, l.map pr, htable, by rw [List.length_map]; exact r2, r3, ?_, ?_, ?_, ?_, ?_, ?_⟩
      · rw [BitVec.lt_def] at *
        show _ < r.2.toNat
        omega
      · intro e he
        dsimp only at he
        rw [htable, List.mem_append, List.mem_reverse] at he
        rcases he with he | he
        · obtain ⟨p, hp, k, rfl, h2, h3⟩ := c1 e he
          obtain ⟨e', he', rfl⟩ := List.mem_map.mp hp
          refine ⟨_, _, k, rfl, ?_, h3, ?_, ?_⟩
          · rw [BitVec.lt_def, BitVec.le_def] at *
            omega
          · have := hpr e' he' _ (Or.inl rfl)
            rw [BitVec.lt_def, BitVec.le_def] at *
            omega
          · have := hpr e' he' _ (Or.inr rfl)
            rw [BitVec.lt_def, BitVec.le_def] at *
            omega
        · exact h.shape e he
      · dsimp only
        rw [htable, List.pairwise_append]
        refine ⟨List.pairwise_reverse.mpr c2, h.desc, ?_⟩
        intro e' he' e he
        obtain ⟨a, b, k, rfl, -⟩ := h.shape e he
        obtain ⟨p, -, k', rfl, h2, -⟩ := c1 e' (List.mem_reverse.mp he')
        rw [gt16_one]
        have := hcodes _ he k rfl
        rw [BitVec.lt_def, BitVec.le_def] at *
        omega
      · dsimp only
        rw [htable, List.map_append, List.nodup_append]
        have hk : (learned first (l.map pr)).map Prod.fst = l.map Prod.fst := by
          rw [← learned_map first l hl2]
          apply List.ext_getElem
          · simp
          · intro i h1 h2
            simp
        rw [List.map_reverse, List.nodup_reverse, hk]
        refine ⟨r4, h.keys, ?_⟩
        intro a ha b hb hab
        rw [List.mem_reverse] at ha
        obtain ⟨e, he, rfl⟩ := List.mem_map.mp ha
        obtain ⟨c, hc, rfl⟩ := List.mem_map.mp hb
        obtain ⟨-, t, -, hq⟩ := hlen e.1 e.2 (r5 e he).1
        rw [pairs_eq] at hq
        obtain ⟨p, hp, h2⟩ := List.mem_map.mp hq
        refine encode_absent h t c hc ?_
        rw [← hab, ← h2]
        exact zip_infix _ _ _ hp
      · refine List.Nodup.map_on ?_ (List.Nodup.of_map _ r4)
        intro x hx y hy hxy
        rw [hsub x (r5 x hx).1 _ rfl, hsub y (r5 y hy).1 _ rfl, hxy]
      · intro p hp
        obtain ⟨e, he, rfl⟩ := List.mem_map.mp hp
        rw [← hval e (r5 e he).1]
        exact ⟨((hc2 e.1 e.2).mp (r5 e he).1).1, (r5 e he).2.2⟩
      · rw [List.pairwise_map]
        refine r6.imp_of_mem ?_
        intro a b ha hb hab
        rw [← hval a (r5 a ha).1, ← hval b (r5 b hb).1]
        exact hab
      · intro p hp q hq
        obtain ⟨e, he, rfl⟩ := List.mem_map.mp hp
        by_cases hz : 0 < seen (data.map (encode m)) q
        · have := r7 e he _ (hmem q hz) rfl fun h => hq ((hin q hz).mpr h)
          rw [← hval e (r5 e he).1]
          exact this
        · omega
      · rw [List.length_map]
        rcases r8 with h | h
        · rw [h]; simp
        · omega
      · rw [List.length_map]
        rcases r9 with h | h | h | h
        · left
          intro q hq1 hq2
          exact (hin q hq1).mpr (h _ (hmem q hq1) rfl hq2)
        · right; left; omega
        · right; right; left; exact h
        · right; right; right
          rw [Nat.zero_add] at h
          exact h

end Verif.Bpe
