import Verif.Lemmas.BpeTrain
import Verif.Spec.Compression

namespace Verif.Bpe
open Verif.ReplaceAll

/-! ### one merge -/

theorem occurs_false (pat s : Str16) (hl : s.length ≤ pat.length) (hp : pat ≠ []) (h : s ≠ pat) : occurs pat s = false := by
  unfold occurs
  cases hf : find pat s with
  | none => rfl
  | some k =>
    exfalso
    obtain ⟨r, h2, -⟩ := find_some s k hf
    have hlen := congrArg List.length h2
    have : 0 < pat.length := List.length_pos_iff.mpr hp
    simp only [List.length_append, List.length_take] at hlen
    have hk : min k s.length = 0 := by omega
    have hr : r = [] := List.length_eq_zero_iff.mp (by omega)
    have ht : s.take k = [] := List.length_eq_zero_iff.mp (by rw [List.length_take]; omega)
    rw [ht, hr, List.nil_append, List.append_nil] at h2
    exact h h2

theorem emplace_new {β : Type} (v : List (Str16 × β)) (k : Str16) (n : β) (h : k ∉ v.map Prod.fst) : emplace v k n = v ++ [(k, n)] := by
  unfold emplace
  rw [if_neg h]

theorem fold_emplace (v : Vocab) : ∀ acc : Vocab, ((acc ++ v).map Prod.fst).Nodup → v.foldl (fun nv e => emplace nv e.1 e.2) acc = acc ++ v := by
  induction v with
  | nil => intro acc _; simp
  | cons e v ih =>
    intro acc h
    rw [List.foldl_cons, emplace_new]
    · rw [ih]
      · simp
      · simpa using h
    · rw [List.map_append, List.nodup_append] at h
      intro hm
      exact h.2.2 _ hm e.1 (by simp) rfl

theorem foldl_congr' {α β : Type} (f g : β → α → β) (l : List α) (h : ∀ b, ∀ a ∈ l, f b a = g b a) : ∀ b, l.foldl f b = l.foldl g b := by
  induction l with
  | nil => intro b; rfl
  | cons a l ih =>
    intro b
    rw [List.foldl_cons, List.foldl_cons, h b a (by simp), ih (fun b a ha => h b a (List.mem_cons_of_mem _ ha))]

theorem updateCode_eq (v : Vocab) (mf : Str16 × Nat) (c : BitVec 16) (hn : (v.map Prod.fst).Nodup) (hl : mf.1.length = 2)
    (hv : ∀ e ∈ v, 0 < e.2 ∧ e.1.length ≤ 2) (hc : [c] ∉ v.map Prod.fst) :
    updateCode v mf [c] = v.filter (fun e => e.1 ≠ mf.1) ++ [([c], mf.2)] := by
  unfold updateCode
  have hsub : ((v.filter (fun e => e.1 ≠ mf.1)).map Prod.fst).Nodup := hn.sublist (List.filter_sublist.map _)
  rw [foldl_congr' _ (fun nv e => emplace nv e.1 e.2), fold_emplace]
  · rw [List.nil_append, emplace_new]
    intro h
    exact hc (List.Sublist.subset (List.filter_sublist.map _) h)
  · simpa using hsub
  · intro nv e he
    obtain ⟨he1, he2⟩ := List.mem_filter.mp he
    unfold updateEntry
    rw [occurs_false mf.1 e.1 (by have := (hv e he1).2; omega) (by intro h; rw [h] at hl; simp at hl) (by simpa using he2)]
    rw [if_neg (by simp), if_pos (hv e he1).1]

theorem mergePairs_eq (v : Vocab) (pat : Str16) (c : BitVec 16) (hn : (v.map Prod.fst).Nodup) (hl : pat.length = 2)
    (hv : ∀ e ∈ v, e.1.length ≤ 2 ∧ e.1 ≠ pat) : mergePairs v pat [c] = v := by
  unfold mergePairs
  rw [foldl_congr' _ (fun nv e => emplace nv e.1 e.2), fold_emplace]
  · simp
  · simpa using hn
  · intro nv e he
    rw [occurs_false pat e.1 (by have := (hv e he).1; omega) (by intro h; rw [h] at hl; simp at hl) (hv e he).2]
    rw [if_neg (by simp)]

/-- What the vocabulary holds during training: pairs that were counted, and codes that were assigned. -/
def Entries (next : BitVec 16) (v : Vocab) : Prop :=
  (v.map Prod.fst).Nodup ∧ ∀ e ∈ v, 0 < e.2 ∧ (e.1.length = 2 ∨ ∃ k, e.1 = [k] ∧ k < next)

theorem entries_perm {next : BitVec 16} {v w : Vocab} (h : w.Perm v) (hv : Entries next v) : Entries next w :=
  ⟨(h.map _).nodup_iff.mpr hv.1, fun e he => hv.2 e (h.mem_iff.mp he)⟩

theorem merge_step (o : Oracle) (i j : Nat) (next : BitVec 16) (v : Vocab) (mf : Str16 × Nat) (hv : Entries next v) (hl : mf.1.length = 2) :
    (mergePairs (o.ord j (updateCode (o.ord i v) mf [next])) mf.1 [next]).Perm (v.filter (fun e => e.1 ≠ mf.1) ++ [([next], mf.2)]) := by
  have hv' := entries_perm (o.perm i v) hv
  have hnew : [next] ∉ (o.ord i v).map Prod.fst := by
    intro h
    obtain ⟨e, he, h1⟩ := List.mem_map.mp h
    rcases (hv'.2 e he).2 with h2 | ⟨k, h2, h3⟩
    · rw [h1] at h2; simp at h2
    · rw [h1] at h2
      simp only [List.cons.injEq, and_true] at h2
      rw [← h2] at h3
      simp at h3
  have hlen : ∀ e ∈ o.ord i v, 0 < e.2 ∧ e.1.length ≤ 2 := by
    intro e he
    refine ⟨(hv'.2 e he).1, ?_⟩
    rcases (hv'.2 e he).2 with h2 | ⟨k, h2, h3⟩
    · omega
    · rw [h2]; simp
  rw [updateCode_eq _ mf next hv'.1 hl hlen hnew]
  have hp := o.perm j ((o.ord i v).filter (fun e => e.1 ≠ mf.1) ++ [([next], mf.2)])
  have hnd : (((o.ord i v).filter (fun e => e.1 ≠ mf.1) ++ [([next], mf.2)]).map Prod.fst).Nodup := by
    rw [List.map_append, List.nodup_append]
    refine ⟨hv'.1.sublist (List.filter_sublist.map _), by simp, ?_⟩
    intro a ha b hb hab
    simp only [List.map_cons, List.map_nil, List.mem_singleton] at hb
    subst hab
    rw [hb] at ha
    exact hnew (List.Sublist.subset (List.filter_sublist.map _) ha)
  rw [mergePairs_eq _ _ _ ((hp.map _).nodup_iff.mpr hnd) hl]
  · exact hp.trans (((o.perm i v).filter _).append_right _)
  · intro e he
    rcases List.mem_append.mp (hp.mem_iff.mp he) with he | he
    · obtain ⟨h1, h2⟩ := List.mem_filter.mp he
      exact ⟨(hlen e h1).2, by simpa using h2⟩
    · rw [List.mem_singleton] at he
      subst he
      refine ⟨by simp, ?_⟩
      intro h
      rw [← h] at hl
      simp at hl

/-- The pair that is found is a most frequent one. -/
theorem find_max (v : Vocab) (minFreq : Nat) : ∀ e ∈ v, 1 < e.1.length → minFreq ≤ e.2 → e.2 ≤ (findMostFrequentPair v minFreq).2 := by
  unfold findMostFrequentPair
  have gen : ∀ (l : Vocab) (best : Str16 × Nat),
      best.2 ≤ (l.foldl (fun best e => if 1 < e.1.length ∧ best.2 < e.2 ∧ minFreq ≤ e.2 then e else best) best).2 ∧
      ∀ e ∈ l, 1 < e.1.length → minFreq ≤ e.2 →
        e.2 ≤ (l.foldl (fun best e => if 1 < e.1.length ∧ best.2 < e.2 ∧ minFreq ≤ e.2 then e else best) best).2 := by
    intro l
    induction l with
    | nil => intro best; exact ⟨le_refl _, by simp⟩
    | cons x l ih =>
      intro best
      rw [List.foldl_cons]
      obtain ⟨h1, h2⟩ := ih (if 1 < x.1.length ∧ best.2 < x.2 ∧ minFreq ≤ x.2 then x else best)
      refine ⟨le_trans ?_ h1, ?_⟩
      · split
        · omega
        · omega
      · intro e he hl hf
        rcases List.mem_cons.mp he with rfl | he
        · refine le_trans ?_ h1
          split
          · omega
          · omega
        · exact h2 e he hl hf
  exact (gen v ([], 0)).2

theorem find_min (v : Vocab) (minFreq : Nat) (h : (findMostFrequentPair v minFreq).2 ≠ 0) : minFreq ≤ (findMostFrequentPair v minFreq).2 := by
  unfold findMostFrequentPair at *
  have gen : ∀ (l : Vocab) (best : Str16 × Nat),
      let r := l.foldl (fun best e => if 1 < e.1.length ∧ best.2 < e.2 ∧ minFreq ≤ e.2 then e else best) best
      r = best ∨ minFreq ≤ r.2 := by
    intro l
    induction l with
    | nil => intro best; exact Or.inl rfl
    | cons e l ih =>
      intro best
      simp only [List.foldl_cons]
      rcases ih (if 1 < e.1.length ∧ best.2 < e.2 ∧ minFreq ≤ e.2 then e else best) with h | h
      · rw [h]
        split
        · rename_i hc; right; exact hc.2.2
        · left; rfl
      · right; exact h
  rcases gen v ([], 0) with h1 | h1
  · rw [h1] at h; simp at h
  · exact h1

/-! ### the loop -/

theorem mapIdx_shift (next : BitVec 16) (e : Str16 × Nat) (l : List (Str16 × Nat)) :
    (e.1, [next]) :: l.mapIdx (fun i e => (e.1, [next + 1 + BitVec.ofNat 16 i])) = (e :: l).mapIdx (fun i e => (e.1, [next + BitVec.ofNat 16 i])) := by
  rw [List.mapIdx_cons]
  congr 1
  · simp
  · congr 1
    funext i e
    congr 2
    rw [BitVec.add_assoc]
    congr 1
    apply BitVec.eq_of_toNat_eq
    simp [Nat.add_comm]

theorem loop_learn (o : Oracle) (minFreq numMerges fuel : Nat) : ∀ (mc : Nat) (v : Vocab) (codes : List (Str16 × Str16)) (next : BitVec 16)
    (r : List (Str16 × Str16) × BitVec 16), trainLoop o minFreq numMerges fuel mc v codes next = some r → Entries next v → next.toNat < 0x7FFE →
    (∀ e ∈ v, e.1 ∉ codes.map Prod.fst) → (∀ c ∈ codes, 2 ≤ c.1.length) →
    ∃ l : List (Str16 × Nat), r.1 = codes ++ l.mapIdx (fun i e => (e.1, [next + BitVec.ofNat 16 i])) ∧ r.2.toNat = next.toNat + l.length ∧
      r.2.toNat ≤ 0x7FFE ∧ (l.map Prod.fst).Nodup ∧ (∀ e ∈ l, e ∈ v ∧ e.1.length = 2 ∧ minFreq ≤ e.2) ∧ l.Pairwise (fun a b => b.2 ≤ a.2) ∧
      (∀ a ∈ l, ∀ b ∈ v, b.1.length = 2 → b ∉ l → b.2 ≤ a.2) ∧ (l = [] ∨ mc + l.length ≤ max 1 numMerges) ∧
      ((∀ b ∈ v, b.1.length = 2 → minFreq ≤ b.2 → b ∈ l) ∨ (1 ≤ mc + l.length ∧ numMerges ≤ mc + l.length) ∨ r.2.toNat = 0x7FFE ∨
        o.stop (mc + l.length) = true) := by
  induction fuel with
  | zero => intro mc v codes next r h; simp [trainLoop] at h
  | succ fuel ih =>
    intro mc v codes next r h hv hn hfresh hcodes
    have stay : ∀ r : List (Str16 × Str16) × BitVec 16, r = (codes, next) →
        ((∀ b ∈ v, b.1.length = 2 → minFreq ≤ b.2 → b ∈ ([] : Vocab)) ∨ (1 ≤ mc + ([] : Vocab).length ∧ numMerges ≤ mc + ([] : Vocab).length) ∨
          r.2.toNat = 0x7FFE ∨ o.stop (mc + ([] : Vocab).length) = true) →
        ∃ l : List (Str16 × Nat), r.1 = codes ++ l.mapIdx (fun i e => (e.1, [next + BitVec.ofNat 16 i])) ∧ r.2.toNat = next.toNat + l.length ∧
          r.2.toNat ≤ 0x7FFE ∧ (l.map Prod.fst).Nodup ∧ (∀ e ∈ l, e ∈ v ∧ e.1.length = 2 ∧ minFreq ≤ e.2) ∧ l.Pairwise (fun a b => b.2 ≤ a.2) ∧
          (∀ a ∈ l, ∀ b ∈ v, b.1.length = 2 → b ∉ l → b.2 ≤ a.2) ∧ (l = [] ∨ mc + l.length ≤ max 1 numMerges) ∧
          ((∀ b ∈ v, b.1.length = 2 → minFreq ≤ b.2 → b ∈ l) ∨ (1 ≤ mc + l.length ∧ numMerges ≤ mc + l.length) ∨ r.2.toNat = 0x7FFE ∨
            o.stop (mc + l.length) = true) := by
      intro r hr hc
      subst hr
      exact ⟨[], by simp, by simp, hn.le, by simp, by simp, by simp, by simp, Or.inl rfl, hc⟩
    rw [trainLoop] at h
    split at h
    · rename_i hcond
      dsimp only at h
      have hp := o.perm (3 * mc) v
      split at h
      · rename_i hz
        rw [Option.some.injEq] at h
        refine stay r h.symm (Or.inl ?_)
        intro b hb hl hf
        have := find_max (o.ord (3 * mc) v) minFreq b (hp.mem_iff.mpr hb) (by omega) hf
        have := (hv.2 b hb).1
        omega
      · rename_i hne
        obtain ⟨m1, m2⟩ := find_mem _ _ hne
        have m3 := find_min _ _ hne
        have m4 := find_max (o.ord (3 * mc) v) minFreq
        generalize findMostFrequentPair (o.ord (3 * mc) v) minFreq = mf at h m1 m2 m3 m4 hne
        have hm : mf ∈ v := hp.mem_iff.mp m1
        have hl : mf.1.length = 2 := by
          rcases (hv.2 mf hm).2 with h2 | ⟨k, h2, -⟩
          · exact h2
          · rw [h2] at m2; simp at m2
        split at h
        · rename_i hs
          rw [Option.some.injEq] at h
          exact stay r h.symm (Or.inr (Or.inr (Or.inr hs)))
        · have hcs : mapSet codes mf.1 [next] = codes ++ [(mf.1, [next])] := by
            unfold mapSet
            rw [if_neg (hfresh mf hm)]
          rw [hcs] at h
          have hstep := merge_step o (3 * mc + 1) (3 * mc + 2) next v mf hv hl
          generalize mergePairs (o.ord (3 * mc + 2) (updateCode (o.ord (3 * mc + 1) v) mf [next])) mf.1 [next] = v' at h hstep
          have hn1 : (next + 1).toNat = next.toNat + 1 := by rw [BitVec.toNat_add]; simp; omega
          have hmax : ∀ b ∈ v, b.1.length = 2 → b.2 ≤ mf.2 := by
            intro b hb hbl
            by_cases hf : minFreq ≤ b.2
            · exact m4 b (hp.mem_iff.mpr hb) (by omega) hf
            · omega
          have hmc : mc + 1 ≤ max 1 numMerges := by
            rcases hcond.2 with h | h
            · exact le_trans (by omega) (le_max_left _ _)
            · exact le_trans (by omega) (le_max_right _ _)
          have hself : ∀ b ∈ v, b.1 = mf.1 → b = mf := by
            intro b hb hbm
            exact List.inj_on_of_nodup_map hv.1 hb hm hbm
          split at h
          · rename_i hfull
            rw [Option.some.injEq] at h
            subst h
            have hr : (next + 1).toNat = 0x7FFE := by rw [BitVec.le_def] at hfull; simp at hfull; omega
            refine ⟨[mf], by simp, by simpa using hn1, hr.le, by simp, ?_, by simp, ?_, Or.inr (by simpa using hmc), Or.inr (Or.inr (Or.inl hr))⟩
            · intro e he
              rw [List.mem_singleton] at he
              subst he
              exact ⟨hm, hl, m3⟩
            · intro a ha b hb hbl hbn
              rw [List.mem_singleton] at ha
              subst ha
              exact hmax b hb hbl
          · rename_i hfull
            have hlt : (next + 1).toNat < 0x7FFE := by rw [BitVec.le_def] at hfull; simp at hfull; omega
            have hv' : Entries (next + 1) v' := by
              refine entries_perm hstep ⟨?_, ?_⟩
              · rw [List.map_append, List.nodup_append]
                refine ⟨hv.1.sublist (List.filter_sublist.map _), by simp, ?_⟩
                intro a ha b hb hab
                simp only [List.map_cons, List.map_nil, List.mem_singleton] at hb
                subst hab
                rw [hb] at ha
                obtain ⟨e, he, h1⟩ := List.mem_map.mp (List.Sublist.subset (List.filter_sublist.map _) ha)
                rcases (hv.2 e he).2 with h2 | ⟨k, h2, h3⟩
                · rw [h1] at h2; simp at h2
                · rw [h1] at h2
                  simp only [List.cons.injEq, and_true] at h2
                  rw [← h2] at h3
                  simp at h3
              · intro e he
                rcases List.mem_append.mp he with he | he
                · obtain ⟨h1, -⟩ := List.mem_filter.mp he
                  refine ⟨(hv.2 e h1).1, ?_⟩
                  rcases (hv.2 e h1).2 with h2 | ⟨k, h2, h3⟩
                  · exact Or.inl h2
                  · exact Or.inr ⟨k, h2, by rw [BitVec.lt_def] at *; omega⟩
                · rw [List.mem_singleton] at he
                  subst he
                  exact ⟨(hv.2 mf hm).1, Or.inr ⟨next, rfl, by rw [BitVec.lt_def]; omega⟩⟩
            have hmem : ∀ b, b.1.length = 2 → (b ∈ v' ↔ b ∈ v ∧ b ≠ mf) := by
              intro b hbl
              rw [hstep.mem_iff, List.mem_append, List.mem_filter, List.mem_singleton]
              constructor
              · rintro (⟨h1, h2⟩ | h1)
                · exact ⟨h1, fun h => by rw [h] at h2; simp at h2⟩
                · rw [h1] at hbl; simp at hbl
              · rintro ⟨h1, h2⟩
                exact Or.inl ⟨h1, by simpa using fun h => h2 (hself b h1 h)⟩
            obtain ⟨l, r1, r2, r3, r4, r5, r6, r7, r8, r9⟩ := ih (mc + 1) v' _ (next + 1) r h hv' hlt (by
                intro e he hin
                rw [List.map_append, List.mem_append] at hin
                rcases List.mem_append.mp (hstep.mem_iff.mp he) with he | he
                · obtain ⟨h1, h2⟩ := List.mem_filter.mp he
                  rcases hin with hin | hin
                  · exact hfresh e h1 hin
                  · simp only [List.map_cons, List.map_nil, List.mem_singleton] at hin
                    rw [hin] at h2
                    simp at h2
                · rw [List.mem_singleton] at he
                  subst he
                  rcases hin with hin | hin
                  · obtain ⟨c, hc, h1⟩ := List.mem_map.mp hin
                    have := hcodes c hc
                    rw [h1] at this
                    simp at this
                  · simp only [List.map_cons, List.map_nil, List.mem_singleton] at hin
                    rw [← hin] at hl
                    simp at hl) (by
                intro c hc
                rcases List.mem_append.mp hc with hc | hc
                · exact hcodes c hc
                · rw [List.mem_singleton] at hc
                  subst hc
                  exact m2)
            have hinv : ∀ e ∈ l, e ∈ v ∧ e ≠ mf := fun e he => (hmem e (r5 e he).2.1).mp (r5 e he).1
            refine ⟨mf :: l, ?_, ?_, r3, ?_, ?_, ?_, ?_, ?_, ?_⟩
            · rw [r1, ← mapIdx_shift, List.append_assoc]
              rfl
            · rw [r2, hn1, List.length_cons]
              omega
            · rw [List.map_cons, List.nodup_cons]
              refine ⟨?_, r4⟩
              intro hin
              obtain ⟨e, he, h1⟩ := List.mem_map.mp hin
              exact (hinv e he).2 (hself e (hinv e he).1 h1)
            · intro e he
              rcases List.mem_cons.mp he with rfl | he
              · exact ⟨hm, hl, m3⟩
              · exact ⟨(hinv e he).1, (r5 e he).2⟩
            · rw [List.pairwise_cons]
              exact ⟨fun e he => hmax e (hinv e he).1 (r5 e he).2.1, r6⟩
            · intro a ha b hb hbl hbn
              rcases List.mem_cons.mp ha with rfl | ha
              · exact hmax b hb hbl
              · refine r7 a ha b ((hmem b hbl).mpr ⟨hb, fun h => hbn (by rw [h]; simp)⟩) hbl fun h => hbn (List.mem_cons_of_mem _ h)
            · right
              rw [List.length_cons]
              rcases r8 with h | h
              · rw [h]; simpa using hmc
              · omega
            · rw [List.length_cons]
              rcases r9 with h | h | h | h
              · left
                intro b hb hbl hbf
                by_cases he : b = mf
                · rw [he]; simp
                · exact List.mem_cons_of_mem _ (h b ((hmem b hbl).mpr ⟨hb, he⟩) hbl hbf)
              · right; left; omega
              · right; right; left; exact h
              · right; right; right
                rw [← h]
                congr 1
                omega
    · rename_i hcond
      rw [Option.some.injEq] at h
      refine stay r h.symm ?_
      by_cases hvn : v = []
      · left
        intro b hb
        rw [hvn] at hb
        simp at hb
      · right; left
        have : ¬(mc < 1 ∨ mc < numMerges) := fun h => hcond ⟨hvn, h⟩
        simp only [List.length_nil, Nat.add_zero]
        omega

/-! ### counting -/

theorem count_step (v : Vocab) (p : Str16) (hn : (v.map Prod.fst).Nodup) :
    ((countUp v p).map Prod.fst).Nodup ∧
      ∀ q n, (q, n) ∈ countUp v p ↔ (q ≠ p ∧ (q, n) ∈ v) ∨ (q = p ∧ ((∃ n', (p, n') ∈ v ∧ n = n' + 1) ∨ (p ∉ v.map Prod.fst ∧ n = 1))) := by
  unfold countUp
  split
  · rename_i hin
    constructor
    · have : (v.map (fun e => if e.1 = p then (e.1, e.2 + 1) else e)).map Prod.fst = v.map Prod.fst := by
        rw [List.map_map]
        apply List.map_congr_left
        intro e _
        simp only [Function.comp]
        split <;> rfl
      rw [this]
      exact hn
    · intro q n
      rw [List.mem_map]
      constructor
      · rintro ⟨⟨q', n'⟩, he, h⟩
        dsimp only at h
        split at h
        · rename_i hq
          simp only [Prod.mk.injEq] at h
          right
          refine ⟨by rw [← h.1, hq], Or.inl ⟨n', by rw [← hq]; exact he, h.2.symm⟩⟩
        · rename_i hq
          simp only [Prod.mk.injEq] at h
          left
          exact ⟨by rw [← h.1]; exact hq, by rw [← h.1, ← h.2]; exact he⟩
      · rintro (⟨h1, h2⟩ | ⟨h1, ⟨n', h2, h3⟩ | ⟨h2, -⟩⟩)
        · exact ⟨(q, n), h2, by simp [h1]⟩
        · exact ⟨(p, n'), h2, by simp [h1, h3]⟩
        · exact absurd hin h2
  · rename_i hin
    constructor
    · rw [List.map_append, List.nodup_append]
      refine ⟨hn, by simp, ?_⟩
      intro a ha b hb hab
      simp only [List.map_cons, List.map_nil, List.mem_singleton] at hb
      subst hab
      rw [hb] at ha
      exact hin ha
    · intro q n
      rw [List.mem_append, List.mem_singleton, Prod.mk.injEq]
      constructor
      · rintro (h | ⟨h1, h2⟩)
        · left
          exact ⟨fun hq => hin (List.mem_map.mpr ⟨(q, n), h, hq⟩), h⟩
        · exact Or.inr ⟨h1, Or.inr ⟨hin, h2⟩⟩
      · rintro (⟨h1, h2⟩ | ⟨h1, ⟨n', h2, h3⟩ | ⟨h2, h3⟩⟩)
        · exact Or.inl h2
        · exact absurd (List.mem_map.mpr ⟨(p, n'), h2, rfl⟩) hin
        · exact Or.inr ⟨h1, h3⟩

/-- A vocabulary with these counts. -/
def Counts (v : Vocab) (f : Str16 → Nat) : Prop := (v.map Prod.fst).Nodup ∧ ∀ q n, (q, n) ∈ v ↔ 0 < n ∧ n = f q

theorem counts_step (v : Vocab) (f : Str16 → Nat) (p : Str16) (h : Counts v f) : Counts (countUp v p) (fun q => if q = p then f q + 1 else f q) := by
  obtain ⟨h1, h2⟩ := h
  obtain ⟨s1, s2⟩ := count_step v p h1
  refine ⟨s1, ?_⟩
  intro q n
  rw [s2]
  dsimp only
  by_cases hq : q = p
  · subst hq
    have hin : q ∉ v.map Prod.fst ↔ f q = 0 := by
      constructor
      · intro hq
        by_contra hz
        exact hq (List.mem_map.mpr ⟨(q, f q), (h2 q (f q)).mpr ⟨by omega, rfl⟩, rfl⟩)
      · intro hz hq
        obtain ⟨⟨q', n'⟩, he, rfl⟩ := List.mem_map.mp hq
        obtain ⟨a, b⟩ := (h2 _ _).mp he
        dsimp only at hz
        omega
    rw [hin]
    simp only [if_true]
    simp only [ne_eq, not_true_eq_false, false_and, false_or, true_and]
    constructor
    · rintro (⟨n', a, b⟩ | ⟨a, b⟩)
      · obtain ⟨c, d⟩ := (h2 _ _).mp a
        omega
      · omega
    · rintro ⟨a, b⟩
      by_cases hz : f q = 0
      · exact Or.inr ⟨hz, by omega⟩
      · exact Or.inl ⟨f q, (h2 _ _).mpr ⟨by omega, rfl⟩, b⟩
  · rw [if_neg hq, ← h2]
    simp [hq]

theorem counts_fold (l : List Str16) : ∀ (v : Vocab) (f : Str16 → Nat), Counts v f → Counts (l.foldl countUp v) (fun q => f q + l.count q) := by
  induction l with
  | nil => intro v f h; simpa using h
  | cons p l ih =>
    intro v f h
    rw [List.foldl_cons]
    have := ih _ _ (counts_step v f p h)
    convert this using 2 with q
    rw [List.count_cons]
    by_cases hq : q = p
    · subst hq; simp; omega
    · simp [hq, Ne.symm hq]

theorem pairs_eq (s : Str16) : pairs s = (s.zip s.tail).map fun p => [p.1, p.2] := by
  induction s with
  | nil => rfl
  | cons a s ih =>
    cases s with
    | nil => rfl
    | cons b s =>
      rw [pairs, ih]
      rfl

theorem count_pairs (s : Str16) (a b : BitVec 16) : (pairs s).count [a, b] = (s.zip s.tail).count (a, b) := by
  rw [pairs_eq]
  generalize s.zip s.tail = l
  induction l with
  | nil => rfl
  | cons p l ih =>
    rw [List.map_cons, List.count_cons, List.count_cons, ih]
    congr 1
    obtain ⟨x, y⟩ := p
    simp [Prod.ext_iff]

theorem pairs_length (s : Str16) : ∀ q ∈ pairs s, q.length = 2 := by
  rw [pairs_eq]
  intro q hq
  obtain ⟨p, -, rfl⟩ := List.mem_map.mp hq
  rfl

/-- The vocabulary counts the pairs of the encoded tokens. -/
theorem buildVocab_counts (m : Model) (data : List Str8) (v : Vocab) (h : buildVocab m data = some v) :
    Counts v (fun q => (data.map fun t => (pairs (encode m t)).count q).sum) ∧ ∀ t ∈ data, encode m t ≠ [] := by
  unfold buildVocab at h
  have gen : ∀ (l : List Str8) (acc v : Vocab) (f : Str16 → Nat), Counts acc f → l.foldl (fun acc t => acc.bind (fun v =>
      if encode m t = [] then none else some ((pairs (encode m t)).foldl countUp v))) (some acc) = some v →
      Counts v (fun q => f q + (l.map fun t => (pairs (encode m t)).count q).sum) ∧ ∀ t ∈ l, encode m t ≠ [] := by
    intro l
    induction l with
    | nil =>
      intro acc v f hc h
      rw [List.foldl_nil, Option.some.injEq] at h
      subst h
      exact ⟨by simpa using hc, by simp⟩
    | cons t l ih =>
      intro acc v f hc h
      rw [List.foldl_cons, Option.bind_some] at h
      by_cases ht : encode m t = []
      · rw [if_pos ht] at h
        exfalso
        clear ih
        induction l with
        | nil => simp at h
        | cons x l ih => rw [List.foldl_cons] at h; exact ih h
      · rw [if_neg ht] at h
        obtain ⟨h1, h2⟩ := ih _ v _ (counts_fold (pairs (encode m t)) acc f hc) h
        refine ⟨?_, ?_⟩
        · convert h1 using 2 with q
          rw [List.map_cons, List.sum_cons]
          omega
        · intro x hx
          rcases List.mem_cons.mp hx with rfl | hx
          · exact ht
          · exact h2 x hx
  have := gen data [] v (fun _ => 0) ⟨by simp, by intro q n; simp; omega⟩ h
  simpa using this

theorem seen_eq (m : Model) (data : List Str8) (a b : BitVec 16) :
    (data.map fun t => (pairs (encode m t)).count [a, b]).sum = seen (data.map (encode m)) (a, b) := by
  unfold seen
  rw [List.map_map]
  congr 1
  apply List.map_congr_left
  intro t _
  exact count_pairs _ a b

end Verif.Bpe
