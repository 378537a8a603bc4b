import Verif.Lemmas.Bpe

namespace Verif.Bpe
open Verif.ReplaceAll

/-- total length of the keys, the termination measure of training -/
def measure {β : Type} (v : List (Str16 × β)) : Nat := (v.map (fun e => e.1.length)).sum

theorem measure_perm {v w : Vocab} (h : v.Perm w) : measure v = measure w := by
  unfold measure
  induction h with
  | nil => rfl
  | cons x _ ih => simp only [List.map_cons, List.sum_cons, ih]
  | swap x y l => simp only [List.map_cons, List.sum_cons]; omega
  | trans _ _ ih1 ih2 => rw [ih1, ih2]

theorem measure_append (v w : Vocab) : measure (v ++ w) = measure v + measure w := by
  simp [measure]

theorem measure_emplace (v : Vocab) (k : Str16) (n : Nat) : measure (emplace v k n) ≤ measure v + k.length := by
  unfold emplace
  split
  · omega
  · rw [measure_append]; simp [measure]

theorem measure_countUp (v : Vocab) (k : Str16) : measure (countUp v k) ≤ measure v + k.length := by
  unfold countUp
  split
  · have : measure (v.map (fun e => if e.1 = k then (e.1, e.2 + 1) else e)) = measure v := by
      unfold measure
      rw [List.map_map]
      congr 1
      apply List.map_congr_left
      intro e _
      simp only [Function.comp]
      split <;> rfl
    omega
  · rw [measure_append]; simp [measure]

theorem measure_filter (v : Vocab) (k : Str16) (n : Nat) (h : (k, n) ∈ v) :
    measure (v.filter (fun e => e.1 ≠ k)) + k.length ≤ measure v := by
  induction v with
  | nil => simp at h
  | cons e v ih =>
    have hle : measure (v.filter (fun e => e.1 ≠ k)) ≤ measure v := by
      clear ih h
      induction v with
      | nil => simp [measure]
      | cons x v ih =>
        simp only [List.filter_cons]
        split
        · simp only [measure, List.map_cons, List.sum_cons] at *; omega
        · simp only [measure, List.map_cons, List.sum_cons] at *; omega
    have hc : measure (e :: v) = e.1.length + measure v := by simp [measure]
    rw [hc]
    by_cases he : e.1 = k
    · rw [List.filter_cons_of_neg (by simpa using he)]
      rw [he]; omega
    · rw [List.filter_cons_of_pos (by simpa using he)]
      have hc' : measure (e :: v.filter (fun e => e.1 ≠ k)) = e.1.length + measure (v.filter (fun e => e.1 ≠ k)) := by
        simp [measure]
      rw [hc']
      have : (k, n) ∈ v := by
        rcases List.mem_cons.mp h with h | h
        · exact absurd (by rw [← h]) he
        · exact h
      have := ih this
      omega

theorem measure_foldl {β : Type} (f : Vocab → β → Vocab) (len : β → Nat) (l : List β)
    (hf : ∀ nv e, e ∈ l → measure (f nv e) ≤ measure nv + len e) : ∀ nv, measure (l.foldl f nv) ≤ measure nv + (l.map len).sum := by
  induction l with
  | nil => intro nv; simp
  | cons e l ih =>
    intro nv
    simp only [List.foldl_cons, List.map_cons, List.sum_cons]
    have h1 := ih (fun nv e he => hf nv e (List.mem_cons_of_mem _ he)) (f nv e)
    have h2 := hf nv e List.mem_cons_self
    omega

theorem measure_updateCode (v : Vocab) (mf : Str16 × Nat) (c : BitVec 16) (hm : mf ∈ v) (hl : 2 ≤ mf.1.length) :
    measure (updateCode v mf [c]) < measure v := by
  unfold updateCode
  refine Nat.lt_of_le_of_lt (measure_emplace _ _ _) ?_
  have h1 := measure_foldl (updateEntry mf [c]) (fun e => e.1.length) (v.filter (fun e => e.1 ≠ mf.1)) (by
      intro nv e _
      unfold updateEntry
      have hlen := length_replaceAll e.1 mf.1 [c] (by simp; omega)
      split
      · split
        · exact Nat.le_trans (measure_emplace _ _ _) (by omega)
        · omega
      · split
        · exact measure_emplace _ _ _
        · omega) []
  have h2 := measure_filter v mf.1 mf.2 hm
  have h0 : measure ([] : Vocab) = 0 := rfl
  rw [h0] at h1
  have h3 : ((v.filter (fun e => e.1 ≠ mf.1)).map (fun e => e.1.length)).sum = measure (v.filter (fun e => e.1 ≠ mf.1)) := rfl
  rw [h3] at h1
  simp only [List.length_singleton]
  omega

theorem measure_mergePairs (v : Vocab) (pat : Str16) (c : BitVec 16) (hl : 1 ≤ pat.length) :
    measure (mergePairs v pat [c]) ≤ measure v := by
  unfold mergePairs
  have h1 := measure_foldl (fun (nv : Vocab) (e : Str16 × Nat) =>
    if occurs pat e.1 then countUp nv (replaceAll e.1 pat [c]) else emplace nv e.1 e.2) (fun e => e.1.length) v (by
      intro nv e _
      split
      · refine Nat.le_trans (measure_countUp _ _) ?_
        have := length_replaceAll e.1 pat [c] (by simpa using hl)
        omega
      · exact measure_emplace _ _ _) []
  have h0 : measure ([] : Vocab) = 0 := rfl
  rw [h0, Nat.zero_add] at h1
  exact h1

theorem find_mem (v : Vocab) (minFreq : Nat) (h : (findMostFrequentPair v minFreq).2 ≠ 0) :
    findMostFrequentPair v minFreq ∈ v ∧ 2 ≤ (findMostFrequentPair v minFreq).1.length := by
  unfold findMostFrequentPair at *
  have gen : ∀ (l : Vocab) (best : Str16 × Nat),
      let r := l.foldl (fun best e => if 1 < e.1.length ∧ best.2 < e.2 ∧ minFreq ≤ e.2 then e else best) best
      r = best ∨ (r ∈ l ∧ 2 ≤ r.1.length) := by
    intro l
    induction l with
    | nil => intro best; exact Or.inl rfl
    | cons e l ih =>
      intro best
      simp only [List.foldl_cons]
      rcases ih (if 1 < e.1.length ∧ best.2 < e.2 ∧ minFreq ≤ e.2 then e else best) with h | ⟨h1, h2⟩
      · rw [h]
        split
        · rename_i hc; right; exact ⟨List.mem_cons_self, hc.1⟩
        · left; rfl
      · right; exact ⟨List.mem_cons_of_mem _ h1, h2⟩
  rcases gen v ([], 0) with h1 | h1
  · rw [h1] at h; simp at h
  · exact h1

theorem trainLoop_terminates (o : Oracle) (minFreq numMerges fuel : Nat) : ∀ (mc : Nat) (v : Vocab) (codes) (next),
    measure v < fuel → ∃ r, trainLoop o minFreq numMerges fuel mc v codes next = some r := by
  induction fuel with
  | zero => intro mc v codes next h; omega
  | succ fuel ih =>
    intro mc v codes next h
    rw [trainLoop]
    split
    · dsimp only
      split
      · exact ⟨_, rfl⟩
      · rename_i hne
        split
        · exact ⟨_, rfl⟩
        · split
          · exact ⟨_, rfl⟩
          · apply ih
            obtain ⟨h1, h2⟩ := find_mem _ _ hne
            have h1' : findMostFrequentPair (o.ord (3 * mc) v) minFreq ∈ o.ord (3 * mc + 1) v :=
              (o.perm _ _).mem_iff.mpr ((o.perm _ _).mem_iff.mp h1)
            have h3 := measure_updateCode _ _ next h1' h2
            have h4 := measure_mergePairs (o.ord (3 * mc + 2) (updateCode (o.ord (3 * mc + 1) v)
              (findMostFrequentPair (o.ord (3 * mc) v) minFreq) [next]))
              (findMostFrequentPair (o.ord (3 * mc) v) minFreq).1 next (by omega)
            have h5 := measure_perm (o.perm (3 * mc + 1) v)
            have h6 := measure_perm (o.perm (3 * mc + 2) (updateCode (o.ord (3 * mc + 1) v)
              (findMostFrequentPair (o.ord (3 * mc) v) minFreq) [next]))
            omega
    · exact ⟨_, rfl⟩

/-- Invariant of code tables: single-character codes between the delimiter and `next`, pairwise different; patterns of at least two characters. -/
def Ok (delim : BitVec 16) (codes : List (Str16 × Str16)) (next : BitVec 16) : Prop :=
  (∀ e ∈ codes, 2 ≤ e.1.length ∧ ∃ k, e.2 = [k] ∧ delim < k ∧ k < next) ∧
  (codes.map Prod.snd).Nodup ∧ (codes.map Prod.fst).Nodup

theorem ok_mapSet {delim next : BitVec 16} {codes : List (Str16 × Str16)} (h : Ok delim codes next) (hd : delim < next)
    (hn : next.toNat < 65535) (pat : Str16) (hp : 2 ≤ pat.length) : Ok delim (mapSet codes pat [next]) (next + 1) := by
  obtain ⟨h1, h2, h3⟩ := h
  have hnn : next < next + 1 := by
    rw [BitVec.lt_def, BitVec.toNat_add]; simp; omega
  have hnotin : ∀ e ∈ codes, e.2 ≠ [next] := by
    intro e he hc
    obtain ⟨_, k, hk, _, hlt⟩ := h1 e he
    rw [hk] at hc
    simp only [List.cons.injEq, and_true] at hc
    rw [hc] at hlt
    exact absurd hlt (by simp [BitVec.lt_def])
  unfold mapSet
  split
  · rename_i hin
    refine ⟨?_, ?_, ?_⟩
    · intro e he
      obtain ⟨e', he', rfl⟩ := List.mem_map.mp he
      split
      · exact ⟨(h1 e' he').1, next, rfl, hd, hnn⟩
      · obtain ⟨hl, k, hk, ha, hb⟩ := h1 e' he'
        exact ⟨hl, k, hk, ha, BitVec.lt_trans hb hnn⟩
    · clear hin h1
      rw [List.map_map]
      induction codes with
      | nil => simp
      | cons e l ih =>
        simp only [List.map_cons, List.nodup_cons, Function.comp] at *
        refine ⟨?_, ih h2.2 h3.2 (fun e he => hnotin e (List.mem_cons_of_mem _ he))⟩
        intro hm
        obtain ⟨e', he', heq⟩ := List.mem_map.mp hm
        simp only [Function.comp] at heq
        by_cases c1 : e.1 = pat
        · by_cases c2 : e'.1 = pat
          · exact h3.1 (List.mem_map.mpr ⟨e', he', by rw [c1, c2]⟩)
          · simp only [c1, c2, if_true, if_false] at heq
            exact hnotin e' (List.mem_cons_of_mem _ he') heq
        · by_cases c2 : e'.1 = pat
          · simp only [c1, c2, if_true, if_false] at heq
            exact hnotin e List.mem_cons_self heq.symm
          · simp only [c1, c2, if_false] at heq
            exact h2.1 (List.mem_map.mpr ⟨e', he', heq⟩)
    · have : (codes.map (fun e => if e.1 = pat then (e.1, [next]) else e)).map Prod.fst = codes.map Prod.fst := by
        rw [List.map_map]
        apply List.map_congr_left
        intro e _
        simp only [Function.comp]
        split <;> rfl
      rw [this]; exact h3
  · rename_i hnin
    refine ⟨?_, ?_, ?_⟩
    · intro e he
      rcases List.mem_append.mp he with he | he
      · obtain ⟨hl, k, hk, ha, hb⟩ := h1 e he
        exact ⟨hl, k, hk, ha, BitVec.lt_trans hb hnn⟩
      · rw [List.mem_singleton] at he
        rw [he]
        exact ⟨hp, next, rfl, hd, hnn⟩
    · rw [List.map_append, List.nodup_append]
      refine ⟨h2, by simp, ?_⟩
      intro a ha b hb hab
      simp only [List.map_cons, List.map_nil, List.mem_singleton] at hb
      obtain ⟨e, he, rfl⟩ := List.mem_map.mp ha
      exact hnotin e he (hab.trans hb)
    · rw [List.map_append, List.nodup_append]
      refine ⟨h3, by simp, ?_⟩
      intro a ha b hb hab
      simp only [List.map_cons, List.map_nil, List.mem_singleton] at hb
      exact hnin (by rw [← hb, ← hab]; exact ha)

theorem trainLoop_ok (o : Oracle) (minFreq numMerges fuel : Nat) (delim : BitVec 16) :
    ∀ (mc : Nat) (v : Vocab) (codes) (next) (r),
      trainLoop o minFreq numMerges fuel mc v codes next = some r → Ok delim codes next → delim < next → next.toNat < 65535 →
      Ok delim r.1 r.2 ∧ next ≤ r.2 ∧ (r.2.toNat ≤ 0x7FFE ∨ r.2.toNat ≤ next.toNat + 1) := by
  induction fuel with
  | zero => intro mc v codes next r h; simp [trainLoop] at h
  | succ fuel ih =>
    intro mc v codes next r h hok hd hn
    have stay : Ok delim codes next ∧ next ≤ next ∧ (next.toNat ≤ 0x7FFE ∨ next.toNat ≤ next.toNat + 1) :=
      ⟨hok, BitVec.le_refl _, Or.inr (by omega)⟩
    have htn : (next + 1).toNat = next.toNat + 1 := by rw [BitVec.toNat_add]; simp; omega
    have hnn : next < next + 1 := by rw [BitVec.lt_def, htn]; omega
    rw [trainLoop] at h
    split at h
    · dsimp only at h
      split at h
      · simp only [Option.some.injEq] at h; subst h; exact stay
      · rename_i hne
        split at h
        · simp only [Option.some.injEq] at h; subst h; exact stay
        · obtain ⟨_, hl⟩ := find_mem _ _ hne
          have hok' := ok_mapSet hok hd hn (findMostFrequentPair (o.ord (3 * mc) v) minFreq).1 hl
          split at h
          · simp only [Option.some.injEq] at h
            subst h
            exact ⟨hok', BitVec.le_of_lt hnn, Or.inr (by rw [htn])⟩
          · rename_i hlt
            have hlt' : (next + 1).toNat < 0x7FFE := by
              rw [BitVec.le_def] at hlt; simpa using hlt
            obtain ⟨h1, h2, h3⟩ := ih _ _ _ _ _ h hok' (BitVec.lt_trans hd hnn) (by omega)
            refine ⟨h1, ?_, ?_⟩
            · rw [BitVec.le_def] at *; omega
            · rcases h3 with h3 | h3
              · exact Or.inl h3
              · left; omega
    · simp only [Option.some.injEq] at h; subst h; exact stay

theorem sortCodes_perm (l : List (Str16 × Str16)) : (sortCodes l).Perm l := List.perm_insertionSort _ l

theorem ok_perm {delim next : BitVec 16} {l l' : List (Str16 × Str16)} (hp : l'.Perm l) (h : Ok delim l next) : Ok delim l' next :=
  ⟨fun e he => h.1 e (hp.mem_iff.mp he), (hp.map _).nodup_iff.mpr h.2.1, (hp.map _).nodup_iff.mpr h.2.2⟩

theorem ok_mono {delim next next' : BitVec 16} {l : List (Str16 × Str16)} (h : Ok delim l next) (hn : next ≤ next') : Ok delim l next' := by
  refine ⟨?_, h.2⟩
  intro e he
  obtain ⟨hl, k, hk, ha, hb⟩ := h.1 e he
  exact ⟨hl, k, hk, ha, by rw [BitVec.lt_def, BitVec.le_def] at *; omega⟩

theorem fold_mapSet (l : List (Str16 × Str16)) : ∀ acc : List (Str16 × Str16), ((acc ++ l).map Prod.fst).Nodup →
    l.foldl (fun c e => mapSet c e.1 e.2) acc = acc ++ l := by
  induction l with
  | nil => intro acc _; simp
  | cons e l ih =>
    intro acc h
    simp only [List.foldl_cons]
    have hnot : e.1 ∉ acc.map Prod.fst := by
      rw [List.map_append, List.nodup_append] at h
      intro hm
      exact h.2.2 _ hm e.1 (by simp) rfl
    have : mapSet acc e.1 e.2 = acc ++ [e] := by
      unfold mapSet; rw [if_neg hnot]
    rw [this, ih _ (by simpa using h)]
    simp

/-- `bumpNext` is at least its start and above every small value in the table; and not above the larger of the start and the largest value plus one. -/
theorem bumpNext_ge (table : List (Str16 × Str16)) : ∀ next, next ≤ bumpNext table next := by
  unfold bumpNext
  induction table with
  | nil => intro next; exact BitVec.le_refl _
  | cons e l ih =>
    intro next
    simp only [List.foldl_cons]
    refine BitVec.le_trans ?_ (ih _)
    generalize (if findMax16 e.1 < findMax16 e.2 then findMax16 e.2 else findMax16 e.1) + 1 = n
    split
    · exact BitVec.le_refl _
    · rename_i h; exact BitVec.not_lt.mp h

theorem findMax16_lt (s : Str16) : (findMax16 s).toNat < 0x7FFF := by
  unfold findMax16
  have : ∀ (l : Str16) (m : BitVec 16), m.toNat < 0x7FFF →
      (l.foldl (fun m c => if m < c ∧ c < 0x7FFF#16 then c else m) m).toNat < 0x7FFF := by
    intro l
    induction l with
    | nil => intro m h; exact h
    | cons c l ih =>
      intro m h
      simp only [List.foldl_cons]
      apply ih
      split
      · rename_i hc; have := hc.2; rw [BitVec.lt_def] at this; simpa using this
      · exact h
  exact this s 0#16 (by decide)

theorem findMax16_singleton (k : BitVec 16) (h : k < 0x7FFF#16) : findMax16 [k] = k := by
  unfold findMax16
  simp only [List.foldl_cons, List.foldl_nil, h, and_true]
  split
  · rfl
  · rename_i hk
    rw [BitVec.lt_def] at hk
    apply BitVec.eq_of_toNat_eq
    simp at hk ⊢
    omega

/-- If every code of the table is a single character below 0x7FFF, `bumpNext` is above all of them. -/
theorem bumpNext_gt (table : List (Str16 × Str16)) : ∀ next, ∀ e ∈ table, ∀ k, e.2 = [k] → k < 0x7FFF#16 → k < bumpNext table next := by
  induction table with
  | nil => intro next e he; simp at he
  | cons x l ih =>
    intro next e he k hk hlt
    rcases List.mem_cons.mp he with he | he
    · subst he
      have hge : ∀ n, bumpNext (e :: l) n = bumpNext l (
          let a := findMax16 e.1
          let b := findMax16 e.2
          let m := (if a < b then b else a) + 1
          if m < n then n else m) := fun n => rfl
      rw [hge]
      have lt_le : ∀ {a b c : BitVec 16}, a < b → b ≤ c → a < c := by
        intro a b c h1 h2; rw [BitVec.lt_def, BitVec.le_def] at *; omega
      refine lt_le ?_ (bumpNext_ge l _)
      rw [hk, findMax16_singleton k hlt]
      have hx := findMax16_lt e.1
      dsimp only
      have hm : k < (if findMax16 e.1 < k then k else findMax16 e.1) + 1 := by
        have hk' : k.toNat < 0x7FFF := by rw [BitVec.lt_def] at hlt; simpa using hlt
        split
        · rw [BitVec.lt_def, BitVec.toNat_add]; simp; omega
        · rename_i hc
          rw [BitVec.lt_def] at hc ⊢
          rw [BitVec.toNat_add]; simp; omega
      generalize (if findMax16 e.1 < k then k else findMax16 e.1) + 1 = n at *
      split
      · rename_i hc; exact BitVec.lt_trans hm hc
      · exact hm
    · exact ih _ e he k hk hlt

end Verif.Bpe
