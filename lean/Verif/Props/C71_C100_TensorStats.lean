import Verif.Model.TensorStats
import Mathlib.Data.List.Perm.Basic
import Mathlib.Algebra.BigOperators.Group.List.Basic
import Mathlib.Tactic.Linarith
import Mathlib.Tactic.NormNum
import Mathlib.Tactic.Ring

/-!
# C71: tensor statistics do not depend on thread scheduling.  C100: quantiles of tensor statistics
-/

namespace Verif.TensorStats

/-! ## C71 -/

theorem collect_count (bucket : ℚ → Nat) (fs : List ℚ) (i : Nat) :
    (collect bucket fs i).count = (fs.filter fun f => decide (bucket f = i)).length := by
  have key : ∀ (fs : List ℚ) (b : Bag), (fs.foldl (addToBag bucket) b i).count =
      (b i).count + (fs.filter fun f => decide (bucket f = i)).length := by
    intro fs
    induction fs with
    | nil => intro b; simp
    | cons f fs ih =>
      intro b
      rw [List.foldl_cons, ih]
      by_cases h : bucket f = i
      · rw [List.filter_cons_of_pos (by simpa using h)]
        simp [addToBag, h]; omega
      · rw [List.filter_cons_of_neg (by simpa using h)]
        have : ¬ i = bucket f := fun h' => h h'.symm
        simp [addToBag, this]
  have := key fs emptyBag
  simpa [collect, emptyBag] using this

theorem merge_count (parts : List Bag) (i : Nat) : (mergeAll parts i).count = (parts.map fun p => (p i).count).sum := by
  have key : ∀ (parts : List Bag) (b : Bag), (parts.foldl merge b i).count = (b i).count + (parts.map fun p => (p i).count).sum := by
    intro parts
    induction parts with
    | nil => intro b; simp
    | cons p ps ih =>
      intro b
      rw [List.foldl_cons, ih]
      simp [merge, mergeEntry]; omega
  have := key parts emptyBag
  simpa [mergeAll, emptyBag] using this

/-- The counts are right for every schedule: however the elements are divided among threads, and in whichever order
the threads deliver, the count of an entry is the number of elements that belong to it. -/
theorem C71_counts (bucket : ℚ → Nat) (elements : List ℚ) (rows : List (List ℚ)) (hr : rows.flatten.Perm elements)
    (parts : List Bag) (hp : parts.Perm (rows.map (collect bucket))) (i : Nat) :
    (mergeAll parts i).count = (elements.filter fun f => decide (bucket f = i)).length := by
  rw [merge_count]
  have h1 : (parts.map fun p => (p i).count).Perm ((rows.map (collect bucket)).map fun p => (p i).count) := hp.map _
  rw [h1.sum_eq]
  have h2 := (hr.filter fun f => decide (bucket f = i)).length_eq
  rw [← h2]
  clear h1 h2 hp hr
  induction rows with
  | nil => rfl
  | cons r rs ih =>
    simp only [List.map_cons, List.sum_cons, ih, List.flatten_cons, List.filter_append, List.length_append, collect_count]

theorem mergeEntry_pos (s p : Entry) (hs : 0 ≤ s.val) (hp : 0 < p.val) : (mergeEntry s p).val = max s.val p.val := by
  unfold mergeEntry
  simp only
  split
  · rename_i h
    rcases h with h | h | h
    · exact absurd h hp.ne'
    · exact absurd h.1 (not_lt.2 hp.le)
    · exact (max_eq_right h.2.le).symm
  · rename_i h
    push Not at h
    exact (max_eq_left (h.2.2 hp)).symm

/-- Where the values are right: for an entry of positive numbers that every thread met, the value is the largest of
the threads' values, so it does not depend on the order. -/
theorem C71_values_partial (parts : List Bag) (i : Nat) (hpos : ∀ p ∈ parts, 0 < (p i).val) :
    (mergeAll parts i).val = (parts.map fun p => (p i).val).foldl max 0 := by
  have key : ∀ (parts : List Bag) (b : Bag), 0 ≤ (b i).val → (∀ p ∈ parts, 0 < (p i).val) →
      (parts.foldl merge b i).val = (parts.map fun p => (p i).val).foldl max (b i).val := by
    intro parts
    induction parts with
    | nil => intro b _ _; rfl
    | cons p ps ih =>
      intro b hb hp
      have h1 : (merge b p i).val = max (b i).val (p i).val := mergeEntry_pos _ _ hb (hp p (by simp))
      rw [List.foldl_cons, ih _ (by rw [h1]; exact le_max_of_le_left hb) (fun q hq => hp q (by simp [hq])), h1]
      rfl
  exact key parts emptyBag le_rfl hpos

/-- Order independence of the values, under the same condition. -/
theorem C71_order_partial (parts parts' : List Bag) (hp : parts.Perm parts') (i : Nat) (hpos : ∀ p ∈ parts, 0 < (p i).val) :
    mergeAll parts i = mergeAll parts' i := by
  have hc : (mergeAll parts i).count = (mergeAll parts' i).count := by
    rw [merge_count, merge_count]; exact (hp.map _).sum_eq
  have hv : (mergeAll parts i).val = (mergeAll parts' i).val := by
    rw [C71_values_partial parts i hpos, C71_values_partial parts' i (fun p h => hpos p (hp.mem_iff.2 h))]
    exact (hp.map _).foldl_eq 0
  cases h1 : mergeAll parts i
  cases h2 : mergeAll parts' i
  rw [h1, h2] at hc hv
  simp only at hc hv
  rw [hc, hv]

/-- What one thread collects: for an entry to which only positive numbers belong, the value is the largest of them (0 if there is none); for
an entry of negative numbers the smallest. -/
theorem C71_collect (bucket : ℚ → Nat) (fs : List ℚ) (i : Nat) :
    ((∀ f ∈ fs, bucket f = i → 0 < f) → (collect bucket fs i).val = (fs.filter fun f => decide (bucket f = i)).foldl max 0) ∧
    ((∀ f ∈ fs, bucket f = i → f < 0) → (collect bucket fs i).val = (fs.filter fun f => decide (bucket f = i)).foldl min 0) := by
  have step : ∀ (b : Bag) f, bucket f ≠ i → addToBag bucket b f i = b i := by
    intro b f h
    unfold addToBag
    rw [if_neg (Ne.symm h)]
  constructor
  · intro h
    have key : ∀ (fs : List ℚ) (b : Bag), 0 ≤ (b i).val → (∀ f ∈ fs, bucket f = i → 0 < f) →
        (fs.foldl (addToBag bucket) b i).val = (fs.filter fun f => decide (bucket f = i)).foldl max (b i).val := by
      intro fs
      induction fs with
      | nil => intro b _ _; rfl
      | cons f fs ih =>
        intro b hb hp
        rw [List.foldl_cons, List.filter_cons]
        by_cases hi : bucket f = i
        · have hf := hp f (by simp) hi
          have hv : (addToBag bucket b f i).val = max (b i).val f := by
            unfold addToBag
            rw [if_pos hi.symm]
            simp only
            split
            · rename_i hc
              rcases hc with hc | hc | hc
              · exact (max_eq_right hc.2.le).symm
              · exact absurd hc.1 (not_lt.2 hf.le)
              · exact absurd hc hf.ne'
            · rename_i hc
              push Not at hc
              exact (max_eq_left (hc.1 hf)).symm
          rw [ih _ (by rw [hv]; exact le_max_of_le_left hb) (fun g hg => hp g (by simp [hg])), hv]
          simp [hi]
        · rw [ih _ (by rw [step b f hi]; exact hb) (fun g hg => hp g (by simp [hg])), step b f hi]
          simp [hi]
    exact key fs emptyBag le_rfl h
  · intro h
    have key : ∀ (fs : List ℚ) (b : Bag), (b i).val ≤ 0 → (∀ f ∈ fs, bucket f = i → f < 0) →
        (fs.foldl (addToBag bucket) b i).val = (fs.filter fun f => decide (bucket f = i)).foldl min (b i).val := by
      intro fs
      induction fs with
      | nil => intro b _ _; rfl
      | cons f fs ih =>
        intro b hb hp
        rw [List.foldl_cons, List.filter_cons]
        by_cases hi : bucket f = i
        · have hf := hp f (by simp) hi
          have hv : (addToBag bucket b f i).val = min (b i).val f := by
            unfold addToBag
            rw [if_pos hi.symm]
            simp only
            split
            · rename_i hc
              rcases hc with hc | hc | hc
              · exact absurd hc.1 (not_lt.2 hf.le)
              · exact (min_eq_right hc.2.le).symm
              · exact absurd hc hf.ne
            · rename_i hc
              push Not at hc
              exact (min_eq_left (hc.2.1 hf)).symm
          rw [ih _ (by rw [hv]; exact min_le_of_left_le hb) (fun g hg => hp g (by simp [hg])), hv]
          simp [hi]
        · rw [ih _ (by rw [step b f hi]; exact hb) (fun g hg => hp g (by simp [hg])), step b f hi]
          simp [hi]
    exact key fs emptyBag le_rfl h

/-- Two positive numbers in one entry, a negative one in another. -/
example : (∀ f ∈ [3, -1, (2 : ℚ)], (if f > 0 then 1 else 0) = 1 → 0 < f) ∧
    (collect (fun f : ℚ => if f > 0 then 1 else 0) [3, -1, 2] 1).val = 3 := by
  refine ⟨?_, by decide +kernel⟩
  intro f hf h
  split at h
  · assumption
  · cases h

/-- The claim is false: a thread that met no element of an entry resets its value to zero if it delivers last, so the
value depends on the schedule.  Two rows, 3 in one of them, and a 5 elsewhere. -/
theorem C71_violated : ∃ (bucket : ℚ → Nat) (r1 r2 : List ℚ) (i : Nat),
    (mergeAll [collect bucket r1, collect bucket r2] i).val = 0 ∧
    (mergeAll [collect bucket r2, collect bucket r1] i).val = 3 ∧ (collect bucket (r1 ++ r2) i).val = 3 := by
  refine ⟨fun f => if f > 4 then 1 else 0, [3], [5], 0, ?_, ?_, ?_⟩ <;> decide +kernel

/-! ## C100 -/

/-- `v` is the value at which the running count of the bag first reaches `m`. -/
def IsQuantile (bag : List (ℚ × Nat)) (m : Nat) (v : ℚ) : Prop :=
  ∃ pre e post, bag = pre ++ e :: post ∧ v = e.1 ∧ (pre = [] ∨ (pre.map (·.2)).sum < m) ∧ m ≤ (pre.map (·.2)).sum + e.2

/-- A larger share has a larger value, for a bag sorted by value. -/
theorem IsQuantile.mono (bag : List (ℚ × Nat)) (hs : bag.Pairwise fun a b => a.1 ≤ b.1) (m m' : Nat) (hm : m ≤ m') (v v' : ℚ)
    (h : IsQuantile bag m v) (h' : IsQuantile bag m' v') : v ≤ v' := by
  obtain ⟨pre, e, post, hb, rfl, h1, h2⟩ := h
  obtain ⟨pre', e', post', hb', rfl, h1', h2'⟩ := h'
  have hsplit := hb.symm.trans hb'
  rcases List.append_eq_append_iff.1 hsplit with ⟨l, hl, hr⟩ | ⟨l, hl, hr⟩
  · cases l with
    | nil => simp at hr; rw [hr.1]
    | cons a l =>
      simp at hr
      obtain ⟨rfl, rfl⟩ := hr
      rw [hb] at hs
      have := (List.pairwise_append.1 hs).2.1
      exact (List.pairwise_cons.1 this).1 e' (by simp)
  · cases l with
    | nil => simp at hr; rw [hr.1]
    | cons a l =>
      simp at hr
      obtain ⟨rfl, rfl⟩ := hr
      rw [hl] at h1 
      simp only [List.map_append, List.map_cons, List.sum_append, List.sum_cons, List.append_eq_nil_iff, reduceCtorEq,
        and_false, false_or] at h1
      omega

theorem quarterPush_spec (size : Nat) (v : ℚ) (cur : Nat) : ∀ fuel next (acc : List ℚ), acc.length < 4 → 4 - acc.length ≤ fuel →
    ∃ k, quarterPush size v cur fuel next acc = (acc ++ List.replicate k v, next + (if acc.length + k = 4 then k - 1 else k) * size) ∧
      acc.length + k ≤ 4 ∧ (∀ j < k, next + j * size ≤ cur) ∧ (acc.length + k < 4 → cur < next + k * size) := by
  intro fuel
  induction fuel with
  | zero => intro next acc h1 h2; omega
  | succ fuel ih =>
    intro next acc h1 h2
    unfold quarterPush
    split
    · rename_i hge
      dsimp only
      split
      · rename_i hl
        simp only [List.length_append, List.length_singleton] at hl
        refine ⟨1, by simp [hl], by omega, ?_, fun h => by omega⟩
        intro j hj
        have : j = 0 := by omega
        subst this; simpa using hge
      · rename_i hl
        simp only [List.length_append, List.length_singleton] at hl
        obtain ⟨k, hk, h3, h4, h5⟩ := ih (next + size) (acc ++ [v]) (by simp; omega) (by simp; omega)
        simp only [List.length_append, List.length_singleton] at hk h3 h4 h5
        have hk1 : acc.length + 1 + k = 4 → 1 ≤ k := by omega
        refine ⟨k + 1, ?_, by omega, ?_, ?_⟩
        · rw [hk, List.replicate_succ, List.append_assoc, List.singleton_append]
          congr 1
          have e1 : acc.length + (k + 1) = acc.length + 1 + k := by omega
          rw [e1]
          split
          · rename_i h
            have := hk1 h
            obtain ⟨k', rfl⟩ : ∃ k', k = k' + 1 := ⟨k - 1, by omega⟩
            simp only [Nat.add_sub_cancel]
            ring
          · ring
        · intro j hj
          cases j with
          | zero => simpa using hge
          | succ j =>
            have := h4 j (by omega)
            calc next + (j + 1) * size = next + size + j * size := by ring
              _ ≤ cur := this
        · intro h
          have := h5 (by omega)
          calc cur < next + size + k * size := this
            _ = next + (k + 1) * size := by ring
    · rename_i hlt
      refine ⟨0, ?_, by omega, by simp, fun _ => by simpa using hlt⟩
      simp

theorem quarterLoop_spec (size : Nat) (bag : List (ℚ × Nat)) : ∀ (rest pre : List (ℚ × Nat)) (acc : List ℚ),
    bag = pre ++ rest → 1 ≤ acc.length → acc.length < 4 →
    (pre = [] ∨ (pre.map (·.2)).sum < acc.length * size) → 3 * size ≤ (bag.map (·.2)).sum → rest ≠ [] ∨ False →
    ∃ vs, quarterLoop size rest (pre.map (·.2)).sum (acc.length * size) acc = acc ++ vs ∧ acc.length + vs.length = 4 ∧
      ∀ (i : Nat) v, vs[i]? = some v → IsQuantile bag ((acc.length + i) * size) v := by
  intro rest
  induction rest with
  | nil => intro pre acc _ _ _ _ _ h; simp at h
  | cons e rest ih =>
    intro pre acc hbag hl1 hl4 hpre htot _
    unfold quarterLoop
    obtain ⟨k, hk, h3, h4, h5⟩ := quarterPush_spec size e.1 ((pre.map (·.2)).sum + e.2) 4 (acc.length * size) acc hl4 (by omega)
    dsimp only
    rw [hk]
    have hq : ∀ j < k, IsQuantile bag ((acc.length + j) * size) e.1 := by
      intro j hj
      refine ⟨pre, e, rest, hbag, rfl, ?_, ?_⟩
      · rcases hpre with h | h
        · exact Or.inl h
        · right
          calc (pre.map (·.2)).sum < acc.length * size := h
            _ ≤ (acc.length + j) * size := Nat.mul_le_mul_right _ (by omega)
      · have := h4 j hj
        rwa [← Nat.add_mul] at this
    simp only [List.length_append, List.length_replicate]
    by_cases hfull : acc.length + k = 4
    · rw [if_pos hfull]
      refine ⟨_, rfl, by simpa using hfull, ?_⟩
      intro i v hv
      rw [List.getElem?_replicate] at hv
      split at hv
      · rename_i hi
        cases hv
        exact hq i hi
      · cases hv
    · rw [if_neg hfull, if_neg hfull]
      have hlt := h5 (by omega)
      rw [← Nat.add_mul] at hlt
      have hsum : ((pre ++ [e]).map (·.2)).sum = (pre.map (·.2)).sum + e.2 := by simp
      have hrest : rest ≠ [] := by
        intro h0
        subst h0
        rw [hbag] at htot
        simp only [List.map_append, List.map_cons, List.map_nil, List.sum_append, List.sum_cons, List.sum_nil, Nat.add_zero] at htot
        have : (acc.length + k) * size ≤ 3 * size := Nat.mul_le_mul_right _ (by omega)
        omega
      obtain ⟨vs, hvs, hlen, hquant⟩ := ih (pre ++ [e]) (acc ++ List.replicate k e.1) (by simp [hbag]) (by simp; omega)
        (by simp; omega) (Or.inr (by rw [hsum]; simpa using hlt)) htot (Or.inl hrest)
      simp only [List.length_append, List.length_replicate] at hvs hlen hquant
      rw [hsum] at hvs
      refine ⟨List.replicate k e.1 ++ vs, ?_, by simp; omega, ?_⟩
      · rw [← Nat.add_mul, hvs, List.append_assoc]
      · intro i v hv
        by_cases hi : i < k
        · rw [List.getElem?_append_left (by simpa using hi), List.getElem?_replicate, if_pos hi] at hv
          cases hv
          exact hq i hi
        · rw [List.getElem?_append_right (by simpa using hi), List.length_replicate] at hv
          have := hquant (i - k) v hv
          rwa [show acc.length + k + (i - k) = acc.length + i from by omega] at this

/-- The quartile values of a bag that is not empty: five values, the smallest, the ones at which a quarter, a half and
three quarters of the elements are reached, and the largest; in ascending order. -/
theorem C100_quarters (bag : List (ℚ × Nat)) (hne : bag ≠ []) (hs : bag.Pairwise fun a b => a.1 ≤ b.1) (n : Nat)
    (hn : n = (bag.map (·.2)).sum) :
    ∃ lo q1 q2 q3 hi, quarters n bag = some [lo, q1, q2, q3, hi] ∧ (bag.head hne).1 = lo ∧ (bag.getLast hne).1 = hi ∧
      IsQuantile bag (n / 4) q1 ∧ IsQuantile bag (2 * (n / 4)) q2 ∧ IsQuantile bag (3 * (n / 4)) q3 ∧
      lo ≤ q1 ∧ q1 ≤ q2 ∧ q2 ≤ q3 ∧ q3 ≤ hi := by
  cases bag with
  | nil => exact absurd rfl hne
  | cons e rest =>
    obtain ⟨vs, hvs, hlen, hq⟩ := quarterLoop_spec (n / 4) (e :: rest) (e :: rest) [] [e.1] rfl (by simp) (by simp)
      (Or.inl rfl) (by omega) (Or.inl (by simp))
    simp only [List.length_singleton, List.map_nil, List.sum_nil, Nat.one_mul] at hvs hlen hq
    obtain ⟨a, b, c, rfl⟩ : ∃ a b c, vs = [a, b, c] := by
      cases vs with
      | nil => simp at hlen
      | cons a vs =>
        cases vs with
        | nil => simp at hlen
        | cons b vs =>
          cases vs with
          | nil => simp at hlen
          | cons c vs =>
            cases vs with
            | nil => exact ⟨a, b, c, rfl⟩
            | cons d vs => simp at hlen; omega
    · clear hlen
      have h1 := hq 0 a rfl
      have h2 := hq 1 b rfl
      have h3 := hq 2 c rfl
      simp only [Nat.add_zero, Nat.one_mul] at h1
      have hin : ∀ m v, IsQuantile (e :: rest) m v → e.1 ≤ v ∧ v ≤ ((e :: rest).getLast (by simp)).1 := by
        rintro m v ⟨pre, x, post, hb, rfl, _, _⟩
        constructor
        · cases pre with
          | nil => simp at hb; rw [hb.1]
          | cons y pre =>
            simp at hb
            rw [← hb.1] at *
            rw [hb.2] at hs
            exact (List.pairwise_cons.1 hs).1 x (by simp)
        · have hx : x ∈ e :: rest := by rw [hb]; simp
          have hl := List.dropLast_append_getLast (l := e :: rest) (by simp)
          rw [← hl] at hx hs
          rcases List.mem_append.1 hx with hx | hx
          · exact (List.pairwise_append.1 hs).2.2 x hx _ (by simp)
          · simp only [List.mem_singleton] at hx
            rw [hx]
      refine ⟨e.1, a, b, c, _, ?_, rfl, rfl, h1, h2, h3, (hin _ _ h1).1, ?_, ?_, (hin _ _ h3).2⟩
      · unfold quarters
        simp only [hvs]
        rfl
      · exact IsQuantile.mono _ hs _ _ (by omega) _ _ h1 h2
      · exact IsQuantile.mono _ hs _ _ (by omega) _ _ h2 h3

/-- A tensor without finite elements has an empty bag, whose front is read all the same. -/
theorem C100_empty_violated (n : Nat) : quarters n [] = none := rfl

/-- The claim is false for the values at 10, 50 and 90 percent: a bucket advances them by one place only.  Of a hundred
elements 99 are 1 and one is 2, and yet the value given for one half is 2. -/
theorem C100_eighty_violated : eighty 100 [(1, 99), (2, 1)] = some [1, 1, 2, 2, 2] ∧
    IsQuantile [(1, 99), (2, 1)] 50 1 ∧ ¬ IsQuantile [(1, 99), (2, 1)] 50 2 := by
  refine ⟨by decide +kernel, ⟨[], (1, 99), [(2, 1)], rfl, rfl, Or.inl rfl, by simp⟩, ?_⟩
  intro h
  have h1 : IsQuantile [((1 : ℚ), 99), (2, 1)] 50 1 := ⟨[], (1, 99), [(2, 1)], rfl, rfl, Or.inl rfl, by simp⟩
  obtain ⟨pre, e, post, hb, hv, hp, _⟩ := h
  cases pre with
  | nil =>
    simp at hb
    rw [← hb.1] at hv
    norm_num at hv
  | cons x pre =>
    simp at hb
    rw [← hb.1] at hp
    simp at hp
    omega

theorem eighty_phase (ten fifty ninety : Nat) (acc : List ℚ) (t : Nat)
    (ht : (acc.length = 1 ∧ t = ten + 1) ∨ (acc.length = 2 ∧ t = fifty) ∨ (acc.length = 3 ∧ t = ninety)) :
    ∀ (rest : List (ℚ × Nat)) (cur : Nat), cur < t → t ≤ cur + (rest.map (·.2)).sum →
    ∃ pre e post, rest = pre ++ e :: post ∧ cur + (pre.map (·.2)).sum < t ∧ t ≤ cur + (pre.map (·.2)).sum + e.2 ∧
      eightyLoop ten fifty ninety rest cur acc =
        if acc.length = 3 then acc ++ [e.1]
        else eightyLoop ten fifty ninety post (cur + (pre.map (·.2)).sum + e.2) (acc ++ [e.1]) := by
  intro rest
  induction rest with
  | nil => intro cur h1 h2; simp at h2; omega
  | cons e rest ih =>
    intro cur h1 h2
    by_cases hit : t ≤ cur + e.2
    · refine ⟨[], e, rest, rfl, by simpa using h1, by simpa using hit, ?_⟩
      conv_lhs => unfold eightyLoop
      simp only [List.map_nil, List.sum_nil, Nat.add_zero]
      rcases ht with ⟨hl, rfl⟩ | ⟨hl, rfl⟩ | ⟨hl, rfl⟩
      · simp [hl, show ten < cur + e.2 by omega]
      · simp [hl, hit]
      · simp [hl, hit]
    · simp only [List.map_cons, List.sum_cons] at h2
      obtain ⟨pre, x, post, hr, h3, h4, h5⟩ := ih (cur + e.2) (by omega) (by omega)
      refine ⟨e :: pre, x, post, by rw [hr]; rfl, by simp only [List.map_cons, List.sum_cons]; omega,
        by simp only [List.map_cons, List.sum_cons]; omega, ?_⟩
      have hstep : eightyLoop ten fifty ninety (e :: rest) cur acc = eightyLoop ten fifty ninety rest (cur + e.2) acc := by
        conv_lhs => unfold eightyLoop
        rcases ht with ⟨hl, rfl⟩ | ⟨hl, rfl⟩ | ⟨hl, rfl⟩
        · simp [hl, show ¬ ten < cur + e.2 by omega]
        · simp [hl, hit]
        · simp [hl, hit]
      rw [hstep, h5]
      simp only [List.map_cons, List.sum_cons, Nat.add_assoc]

/-- Where they are right: if every bucket holds less than four tenths of the elements, the values given for 10, 50 and 90
percent are the ones at which the running count passes these shares. -/
theorem C100_eighty_partial (bag : List (ℚ × Nat)) (hne : bag ≠ []) (n : Nat) (hn : n = (bag.map (·.2)).sum)
    (hsmall : ∀ e ∈ bag, e.2 < 4 * (n / 10)) :
    ∃ lo a b c hi, eighty n bag = some [lo, a, b, c, hi] ∧ (bag.head hne).1 = lo ∧ (bag.getLast hne).1 = hi ∧
      IsQuantile bag (n / 10 + 1) a ∧ IsQuantile bag (5 * (n / 10)) b ∧ IsQuantile bag (9 * (n / 10)) c := by
  · obtain ⟨e0, rest0, hbag⟩ := List.exists_cons_of_ne_nil hne
    have hten : 0 < n / 10 := by have := hsmall e0 (by simp [hbag]); omega
    have hfifty : min (n / 2) (5 * (n / 10)) = 5 * (n / 10) := by omega
    have hninety : min (n * 9 / 10) (9 * (n / 10)) = 9 * (n / 10) := by omega
    obtain ⟨ten, htendef⟩ : ∃ t, t = n / 10 := ⟨_, rfl⟩
    rw [← htendef] at hsmall hten hfifty hninety ⊢
    have hn10 : 10 * ten ≤ n := by omega
    obtain ⟨p1, e1, q1, hr1, lt1, le1, st1⟩ := eighty_phase ten (5 * ten) (9 * ten) [e0.1] (ten + 1) (Or.inl ⟨rfl, rfl⟩)
      bag 0 (by omega) (by omega)
    have c1 := hsmall e1 (by rw [hr1]; simp)
    have s1 : (bag.map (·.2)).sum = (p1.map (·.2)).sum + e1.2 + (q1.map (·.2)).sum := by rw [hr1]; simp; omega
    rw [if_neg (by simp)] at st1
    obtain ⟨p2, e2, q2, hr2, lt2, le2, st2⟩ := eighty_phase ten (5 * ten) (9 * ten) ([e0.1] ++ [e1.1]) (5 * ten)
      (Or.inr (Or.inl ⟨rfl, rfl⟩)) q1 (0 + (p1.map (·.2)).sum + e1.2) (by omega) (by omega)
    have c2 := hsmall e2 (by rw [hr1, hr2]; simp)
    have s2 : (q1.map (·.2)).sum = (p2.map (·.2)).sum + e2.2 + (q2.map (·.2)).sum := by rw [hr2]; simp; omega
    rw [if_neg (by simp)] at st2
    obtain ⟨p3, e3, q3, hr3, lt3, le3, st3⟩ := eighty_phase ten (5 * ten) (9 * ten) ([e0.1] ++ [e1.1] ++ [e2.1]) (9 * ten)
      (Or.inr (Or.inr ⟨rfl, rfl⟩)) q2 (0 + (p1.map (·.2)).sum + e1.2 + (p2.map (·.2)).sum + e2.2) (by omega) (by omega)
    rw [if_pos (by simp)] at st3
    rw [st2, st3] at st1
    refine ⟨e0.1, e1.1, e2.1, e3.1, (bag.getLast hne).1, ?_, ?_, rfl, ?_, ?_, ?_⟩
    · subst hbag
      unfold eighty
      have h0 : ¬ n = 0 := by omega
      simp only [h0, if_false]
      simp only [← htendef, hfifty, hninety, st1]
      rfl
    · subst hbag; rfl
    · exact ⟨p1, e1, q1, hr1, rfl, Or.inr (by omega), by omega⟩
    · refine ⟨p1 ++ e1 :: p2, e2, q2, by rw [hr1, hr2]; simp, rfl, Or.inr ?_, ?_⟩ <;> simp <;> omega
    · refine ⟨p1 ++ e1 :: (p2 ++ e2 :: p3), e3, q3, by rw [hr1, hr2, hr3]; simp, rfl, Or.inr ?_, ?_⟩ <;> simp <;> omega

/-- A bag of ten equal shares meets the conditions, and the values are the expected ones. -/
example : let bag : List (ℚ × Nat) := (List.range 10).map fun i => ((i : ℚ), 10)
    (∀ e ∈ bag, e.2 < 4 * (100 / 10)) ∧ (bag.map (·.2)).sum = 100 ∧ eighty 100 bag = some [0, 1, 4, 8, 9] ∧
      quarters 100 bag = some [0, 2, 4, 7, 9] := by
  decide +kernel

end Verif.TensorStats
