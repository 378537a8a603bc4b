import Verif.Model.LruCache
import Mathlib.Data.List.Basic
import Mathlib.Data.List.Nodup
import Mathlib.Data.List.Dedup

/-!
C07. The de-duplication cache. The full property ("after any sequence of insertions the cache holds at most `capacity` keys, and
holds exactly the last `capacity` inserted keys") is false when a key is inserted while it is already present
(`C07_capacity_violated`, `C07_recent_violated`), and insertion into a cache of capacity 0 is undefined behaviour (`C07_zero_capacity_violated`).
It holds for histories in which a key is only inserted while absent (`C07_bounded_partial`,
`C07_recent_partial`), which is how `BinaryDatasetWriter::writeRow` uses the cache (it inserts only after `contains` said no).
For all histories whatsoever, a key reported as present was inserted (`C07_no_false_positive`).
-/
namespace Verif.LruCache

variable {K : Type} [DecidableEq K]

/-- The use pattern "insert only if absent": feed `ks` to the cache, skipping keys already present; returns the final cache and the keys
actually inserted, most recent first. -/
def runGuarded (capacity : Nat) (s : State K) (done : List K) : List K → Option (State K × List K)
  | [] => some (s, done)
  | k :: ks =>
    if contains s k then runGuarded capacity s done ks
    else (insert capacity s k).bind (fun s' => runGuarded capacity s' (k :: done) ks)

/-- Guarded invariant: list and map agree, both are the last `capacity` inserted keys. -/
def Inv (capacity : Nat) (s : State K) (done : List K) : Prop :=
  s.list = done.take capacity ∧ s.list.Nodup ∧ s.map.Nodup ∧ (∀ k, k ∈ s.map ↔ k ∈ s.list)

theorem inv_len {c : Nat} {s : State K} {done : List K} (h : Inv c s done) : s.map.length = s.list.length := by
  obtain ⟨_, h2, h3, h4⟩ := h
  exact ((List.perm_ext_iff_of_nodup h3 h2).mpr h4).length_eq

theorem inv_insert {c : Nat} (hc : 0 < c) {s : State K} {done : List K} (h : Inv c s done) {k : K} (hk : k ∉ s.map) :
    ∃ s', insert c s k = some s' ∧ Inv c s' (k :: done) := by
  have hlen := inv_len h
  obtain ⟨h1, h2, h3, h4⟩ := h
  have hkl : k ∉ s.list := fun hh => hk ((h4 k).mpr hh)
  unfold insert
  by_cases hfull : c ≤ s.map.length
  · rw [if_pos hfull]
    have hne : s.list ≠ [] := by intro hh; rw [hh] at hlen; rw [List.length_nil] at hlen; omega
    have hll : s.list.length = c := by
      have : s.list.length ≤ c := by rw [h1]; exact List.length_take_le _ _
      omega
    unfold evict
    rw [List.getLast?_eq_some_getLast hne]
    simp only [Option.map_some, Option.some.injEq, exists_eq_left']
    have hdec : s.list.dropLast ++ [s.list.getLast hne] = s.list := List.dropLast_append_getLast hne
    have hnd : (s.list.dropLast ++ [s.list.getLast hne]).Nodup := by rw [hdec]; exact h2
    rw [List.nodup_append] at hnd
    obtain ⟨hd1, _, hd3⟩ := hnd
    have hmemd : ∀ x, x ∈ s.list ↔ x ∈ s.list.dropLast ∨ x = s.list.getLast hne := by
      intro x; conv_lhs => rw [← hdec]
      simp
    have hkd : k ∉ s.list.dropLast := fun hh => hkl ((hmemd k).mpr (Or.inl hh))
    have hkf : k ∉ s.map.filter (· ≠ s.list.getLast hne) := fun hh => hk (List.mem_of_mem_filter hh)
    refine ⟨?_, ?_, ?_, ?_⟩
    · simp only [push]
      have : s.list.dropLast = done.take (c - 1) := by
        rw [List.dropLast_eq_take, hll, h1, List.take_take]
        congr 1; omega
      rw [this]
      conv_rhs => rw [show c = (c - 1) + 1 by omega, List.take_succ_cons]
    · simp only [push]
      exact List.nodup_cons.mpr ⟨hkd, hd1⟩
    · simp only [push, hkf, if_false]
      exact List.nodup_cons.mpr ⟨hkf, h3.filter _⟩
    · intro x
      simp only [push, hkf, if_false, List.mem_cons, List.mem_filter, decide_eq_true_eq, h4 x, hmemd x]
      constructor
      · rintro (h | ⟨h | h, hne'⟩)
        · exact Or.inl h
        · exact Or.inr h
        · exact absurd h hne'
      · rintro (h | h)
        · exact Or.inl h
        · exact Or.inr ⟨Or.inl h, fun e => hd3 x h _ (by simp) e⟩
  · rw [if_neg hfull]
    refine ⟨push s k, rfl, ?_, ?_, ?_, ?_⟩
    · simp only [push]
      have hdl : done.length < c := by
        have : s.list.length = min c done.length := by rw [h1]; exact List.length_take
        omega
      rw [h1, List.take_of_length_le (by omega), List.take_of_length_le (by simp; omega)]
    · exact List.nodup_cons.mpr ⟨hkl, h2⟩
    · simp only [push, hk, if_false]
      exact List.nodup_cons.mpr ⟨hk, h3⟩
    · intro x
      simp only [push, hk, if_false, List.mem_cons, h4 x]

theorem guarded {c : Nat} (hc : 0 < c) (ks : List K) : ∀ (s : State K) (done : List K), Inv c s done →
    ∃ s' done', runGuarded c s done ks = some (s', done') ∧ Inv c s' done' ∧
      (∃ l : List K, l.Sublist ks ∧ done' = l.reverse ++ done) := by
  induction ks with
  | nil => intro s done h; exact ⟨s, done, rfl, h, [], by simp, by simp⟩
  | cons k ks ih =>
    intro s done h
    simp only [runGuarded]
    by_cases hk : contains s k = true
    · rw [if_pos hk]
      obtain ⟨s', d', e, hi, l, hl, hd⟩ := ih s done h
      exact ⟨s', d', e, hi, l, hl.trans (List.sublist_cons_self _ _), hd⟩
    · rw [if_neg hk]
      have hk' : k ∉ s.map := by simpa [contains] using hk
      obtain ⟨s1, e1, i1⟩ := inv_insert hc h hk'
      obtain ⟨s', d', e, hi, l, hl, hd⟩ := ih s1 (k :: done) i1
      refine ⟨s', d', ?_, hi, k :: l, List.Sublist.cons_cons _ hl, ?_⟩
      · rw [e1]; exact e
      · rw [hd]; simp

/-- Guarded use never hits undefined behaviour and never exceeds the capacity. -/
theorem C07_bounded_partial (c : Nat) (hc : 0 < c) (ks : List K) :
    ∃ s done, runGuarded c (init : State K) [] ks = some (s, done) ∧ s.map.length ≤ c := by
  obtain ⟨s, d, e, hi, _⟩ := guarded hc ks init [] ⟨by simp [init], by simp [init], by simp [init], by simp [init]⟩
  refine ⟨s, d, e, ?_⟩
  rw [inv_len hi, hi.1]
  exact List.length_take_le _ _

/-- Guarded use: a key is reported present exactly when it is among the last `capacity` keys inserted. -/
theorem C07_recent_partial (c : Nat) (hc : 0 < c) (ks : List K) (s : State K) (done : List K)
    (h : runGuarded c (init : State K) [] ks = some (s, done)) (k : K) :
    contains s k = true ↔ k ∈ done.take c := by
  obtain ⟨s', d', e, hi, _⟩ := guarded hc ks init [] ⟨by simp [init], by simp [init], by simp [init], by simp [init]⟩
  rw [h] at e
  simp only [Option.some.injEq, Prod.mk.injEq] at e
  obtain ⟨rfl, rfl⟩ := e
  rw [← hi.1, ← hi.2.2.2 k]
  simp [contains]

/-- Guarded use inserts every key that is not among the most recent `capacity` ones: each key of the stream is present right after it was fed. -/
theorem C07_present_after (c : Nat) (hc : 0 < c) (ks : List K) (k : K) (s : State K) (done : List K)
    (h : runGuarded c (init : State K) [] (ks ++ [k]) = some (s, done)) : contains s k = true := by
  have gen : ∀ (ks : List K) (s0 : State K) (d0 : List K), Inv c s0 d0 → runGuarded c s0 d0 (ks ++ [k]) = some (s, done) →
      contains s k = true := by
    intro ks
    induction ks with
    | nil =>
      intro s0 d0 hi h
      simp only [List.nil_append, runGuarded] at h
      by_cases hk : contains s0 k = true
      · rw [if_pos hk] at h; simp only [Option.some.injEq, Prod.mk.injEq] at h; rw [← h.1]; exact hk
      · rw [if_neg hk] at h
        obtain ⟨s1, e1, i1⟩ := inv_insert hc hi (by simpa [contains] using hk)
        rw [e1] at h
        simp only [Option.bind_some, Option.some.injEq, Prod.mk.injEq] at h
        rw [← h.1]
        have : k ∈ s1.list := by rw [i1.1]; cases c with
          | zero => omega
          | succ n => simp
        simpa [contains] using (i1.2.2.2 k).mpr this
    | cons x ks ih =>
      intro s0 d0 hi h
      simp only [List.cons_append, runGuarded] at h
      by_cases hk : contains s0 x = true
      · rw [if_pos hk] at h; exact ih s0 d0 hi h
      · rw [if_neg hk] at h
        obtain ⟨s1, e1, i1⟩ := inv_insert hc hi (by simpa [contains] using hk)
        rw [e1] at h
        exact ih s1 _ i1 h
  exact gen ks init [] ⟨by simp [init], by simp [init], by simp [init], by simp [init]⟩ h

/-- For every history: a key reported present was inserted. -/
theorem C07_no_false_positive (c : Nat) (ks : List K) (s : State K) (h : run c (init : State K) ks = some s) (k : K)
    (hk : contains s k = true) : k ∈ ks := by
  have gen : ∀ (ks : List K) (s0 : State K), run c s0 ks = some s → k ∈ ks ∨ k ∈ s0.map := by
    intro ks
    induction ks with
    | nil =>
      intro s0 h
      simp only [run, Option.some.injEq] at h
      right; rw [h]; simpa [contains] using hk
    | cons x ks ih =>
      intro s0 h
      simp only [run] at h
      have step : ∀ s1, insert c s0 x = some s1 → k ∈ s1.map → k = x ∨ k ∈ s0.map := by
        intro s1 h1 hm
        have pushmem : ∀ t : State K, k ∈ (push t x).map → k = x ∨ k ∈ t.map := by
          intro t ht
          simp only [push] at ht
          split at ht
          · exact Or.inr ht
          · simpa using ht
        unfold insert at h1
        split at h1
        · unfold evict at h1
          split at h1
          · simp at h1
          · simp only [Option.map_some, Option.some.injEq] at h1
            rw [← h1] at hm
            rcases pushmem _ hm with hm | hm
            · exact Or.inl hm
            · exact Or.inr (List.mem_of_mem_filter hm)
        · simp only [Option.some.injEq] at h1
          rw [← h1] at hm
          exact pushmem _ hm
      cases h1 : insert c s0 x with
      | none => rw [h1] at h; simp at h
      | some s1 =>
        rw [h1] at h
        rcases ih s1 h with h2 | h2
        · exact Or.inl (List.mem_cons_of_mem _ h2)
        · rcases step s1 h1 h2 with h3 | h3
          · left; rw [h3]; exact List.mem_cons_self
          · exact Or.inr h3
  rcases gen ks init h with h1 | h1
  · exact h1
  · simp [init] at h1

/-- Re-inserting a present key breaks the bound: capacity 2, keys 1,1,2,3,4 leave 3 keys in the cache. -/
theorem C07_capacity_violated : ∃ (c : Nat) (ks : List Nat) (s : State Nat), 0 < c ∧
    run c init ks = some s ∧ c < s.map.length :=
  ⟨2, [1, 1, 2, 3, 4], _, by decide, rfl, by decide⟩

/-- Re-inserting a present key makes the cache forget a recent key: capacity 2, keys 1,1,2,1,3 leave 1 (last but one) absent. -/
theorem C07_recent_violated : ∃ (c : Nat) (ks : List Nat) (s : State Nat) (k : Nat), 0 < c ∧
    run c init ks = some s ∧ k ∈ ks.reverse.take c ∧ contains s k = false :=
  ⟨2, [1, 1, 2, 1, 3], _, 1, by decide, rfl, by decide, by decide⟩

/-- Capacity 0: the first insertion is undefined behaviour. -/
theorem C07_zero_capacity_violated (k : K) : insert 0 (init : State K) k = none := by
  simp [insert, evict, init]

example : (runGuarded 2 (init : State Nat) [] [1, 2, 1, 3, 1]).map (fun p => (p.1.map, p.2)) = some ([1, 3], [1, 3, 2, 1]) := by
  decide

end Verif.LruCache
