import Verif.Lemmas.Trie

/-!
C06. After any sequence of insertions (and whatever iteration order the hash maps happen to have): a word is found exactly when it was
inserted, looking it up returns the value inserted last for that very word (the empty string if there is none), a string is a
known prefix exactly when it is empty or starts an inserted word, and `complete` returns the empty string for an unknown prefix
and otherwise a longest inserted word starting with the prefix (the prefix itself if no inserted word is longer).

The specification is the history itself: `h` lists the insertions, most recent first, and `h.lookup w` is the value of the most recent
insertion of `w`.
-/
namespace Verif.Trie

theorem reach_inv {h : List (Str × Str)} {t : Node} (r : Reach h t) :
    WF t ∧ (∀ w, get t w = h.lookup w) ∧
    (∀ p, (walk t p).isSome = true ↔ (p = [] ∨ ∃ w v, (w, v) ∈ h ∧ p <+: w)) := by
  induction r with
  | empty =>
    refine ⟨wf_empty, fun w => by simp [get_empty], ?_⟩
    intro p
    cases p <;> simp [walk, Node.empty, child]
  | @insert h n w v _ ih =>
    obtain ⟨h1, h2, h3⟩ := ih
    refine ⟨wf_insert w n v h1, ?_, ?_⟩
    · intro u
      rw [get_insert, List.lookup_cons, h2]
      by_cases e : u = w
      · simp [e]
      · have : (u == w) = false := by simpa using e
        simp [this, e]
    · intro p
      rw [walk_insert, h3]
      constructor
      · rintro ((h | ⟨w', v', hm, hp⟩) | h)
        · exact Or.inl h
        · exact Or.inr ⟨w', v', List.mem_cons_of_mem _ hm, hp⟩
        · exact Or.inr ⟨w, v, List.mem_cons_self, h⟩
      · rintro (h | ⟨w', v', hm, hp⟩)
        · exact Or.inl (Or.inl h)
        · rcases List.mem_cons.mp hm with hm | hm
          · simp only [Prod.mk.injEq] at hm
            right; rw [← hm.1]; exact hp
          · exact Or.inl (Or.inr ⟨w', v', hm, hp⟩)
  | reorder _ hr ih =>
    obtain ⟨h1, h2, h3⟩ := ih
    refine ⟨reorder_wf hr h1, ?_, ?_⟩
    · intro w; rw [← (reorder_get hr h1 w).1]; exact h2 w
    · intro p; rw [← (reorder_get hr h1 p).2]; exact h3 p

/-- `lookup` returns the value of the most recent insertion of that word, else the empty string. -/
theorem C06_lookup {h : List (Str × Str)} {t : Node} (r : Reach h t) (w : Str) :
    lookup t w = (match h.lookup w with | some v => v | none => []) := by
  have := (reach_inv r).2.1 w
  rw [← this]
  unfold lookup get
  cases walk t w with
  | none => rfl
  | some n => obtain ⟨e, v, ch⟩ := n; cases e <;> rfl

/-- `search` and `match` hold exactly for the inserted words. -/
theorem C06_search {h : List (Str × Str)} {t : Node} (r : Reach h t) (w : Str) :
    (search t w = true ↔ ∃ v, (w, v) ∈ h) ∧ matches_ t w = search t w := by
  refine ⟨?_, rfl⟩
  have hg := (reach_inv r).2.1 w
  have h1 : search t w = true ↔ (get t w).isSome = true := by
    unfold search get
    cases walk t w with
    | none => simp
    | some n => obtain ⟨e, v, ch⟩ := n; cases e <;> simp
  rw [h1, hg]
  clear h1 hg r
  induction h with
  | nil => simp
  | cons p h ih =>
    obtain ⟨k, v⟩ := p
    rw [List.lookup_cons]
    by_cases e : w = k
    · subst e; simp
    · have : (w == k) = false := by simpa using e
      simp [this, ih, e]

/-- `startsWith` holds exactly for the prefixes of inserted words (and the empty string). -/
theorem C06_startsWith {h : List (Str × Str)} {t : Node} (r : Reach h t) (p : Str) :
    startsWith t p = true ↔ (p = [] ∨ ∃ w v, (w, v) ∈ h ∧ p <+: w) := by
  rw [← (reach_inv r).2.2 p]
  unfold startsWith
  cases walk t p <;> simp

/-- `complete` on a string that starts no inserted word is the empty string. -/
theorem C06_complete_unknown {h : List (Str × Str)} {t : Node} (r : Reach h t) (p : Str)
    (hp : ¬ (p = [] ∨ ∃ w v, (w, v) ∈ h ∧ p <+: w)) : complete t p = [] := by
  rw [← (reach_inv r).2.2 p] at hp
  unfold complete
  cases hw : walk t p with
  | none => rfl
  | some n => rw [hw] at hp; simp at hp

/-- `complete` on a known prefix returns the prefix or an inserted word that starts with it, and no inserted word starting with the
prefix is longer. -/
theorem C06_complete_known {h : List (Str × Str)} {t : Node} (r : Reach h t) (p : Str)
    (hp : p = [] ∨ ∃ w v, (w, v) ∈ h ∧ p <+: w) :
    p <+: complete t p ∧ (complete t p = p ∨ ∃ v, (complete t p, v) ∈ h) ∧
    ∀ w v, (w, v) ∈ h → p <+: w → w.length ≤ (complete t p).length := by
  obtain ⟨hwf, hget, hwalk⟩ := reach_inv r
  rw [← hwalk p] at hp
  cases hw : walk t p with
  | none => rw [hw] at hp; simp at hp
  | some n =>
    have hc : complete t p = dfs n p p := by unfold complete; rw [hw]
    rw [hc]
    have hgn : ∀ w, get n w = get t (p ++ w) := by
      intro w; unfold get; rw [walk_append, hw]; rfl
    have hmem : ∀ w v, (w, v) ∈ h → ∃ v', get t w = some v' := by
      intro w v hm
      have h1 := (C06_search r w).1.mpr ⟨v, hm⟩
      unfold search at h1
      unfold get
      cases hx : walk t w with
      | none => rw [hx] at h1; simp at h1
      | some m =>
        obtain ⟨e, u, ch⟩ := m
        rw [hx] at h1
        simp only at h1
        exact ⟨u, by simp [h1]⟩
    have hge := dfs_ge n p p
    refine ⟨?_, ?_, ?_⟩
    · rcases dfs_stored n (walk_wf p t n hwf hw) p p with h' | ⟨w, v, _, h'⟩
      · rw [h']; exact List.prefix_refl _
      · rw [h']; exact List.prefix_append _ _
    · rcases dfs_stored n (walk_wf p t n hwf hw) p p with h' | ⟨w, v, hg, h'⟩
      · left; exact h'
      · right
        rw [h']
        rw [hgn] at hg
        have : search t (p ++ w) = true := by
          unfold search; unfold get at hg
          cases hx : walk t (p ++ w) with
          | none => rw [hx] at hg; simp at hg
          | some m =>
            obtain ⟨e, u, ch⟩ := m
            rw [hx] at hg
            simp only at hg ⊢
            split at hg
            · assumption
            · simp at hg
        exact (C06_search r _).1.mp this
    · rintro w v hm ⟨u, rfl⟩
      obtain ⟨v', hv'⟩ := hmem _ v hm
      exact hge.2 u v' (by rw [hgn]; exact hv')

-- Non-vacuity: "a"↦1, "ab"↦2, then "a"↦3; the map of the root reordered in between.
example : Reach [([97], [3]), ([97, 98], [2]), ([97], [1])]
    (insert (insert (insert .empty [97] [1]) [97, 98] [2]) [97] [3]) :=
  .insert _ _ (.insert _ _ (.insert _ _ .empty))
example : let t := insert (insert (insert .empty [97] [1]) [97, 98] [2]) [97] [3]
    lookup t [97] = [3] ∧ lookup t [97, 98] = [2] ∧ search t [98] = false ∧ complete t [97] = [97, 98] ∧ complete t [98] = [] := by
  decide
example : Reorder (.mk false [] [(1, .empty), (2, .empty)]) (.mk false [] [(2, .empty), (1, .empty)]) :=
  .here (List.Perm.swap _ _ _)

end Verif.Trie
