import Verif.Model.Trie
import Mathlib.Data.List.Basic

namespace Verif.Trie

theorem child_setChild (ch : List (UInt8 × Node)) (c d : UInt8) (n : Node) :
    child (setChild ch c n) d = if d = c then some n else child ch d := by
  induction ch with
  | nil => simp only [setChild, child]; split <;> rename_i h <;> [simp [h]; simp [Ne.symm h]]
  | cons p rest ih =>
    obtain ⟨k, m⟩ := p
    simp only [setChild]
    by_cases hk : k = c
    · subst hk
      simp only [if_true, child]
      by_cases hd : k = d
      · subst hd; simp
      · simp [hd, Ne.symm hd]
    · simp only [hk, if_false, child, ih]
      by_cases hd : k = d
      · subst hd; simp [hk]
      · simp [hd]

/-- What is stored under a word. -/
def get (n : Node) (w : Str) : Option Str :=
  match walk n w with
  | none => none
  | some (.mk e v _) => if e then some v else none

theorem get_nil (e v ch) : get (.mk e v ch) [] = if e then some v else none := rfl

theorem get_cons (e v ch c cs) : get (.mk e v ch) (c :: cs) =
    match child ch c with | none => none | some n => get n cs := by
  unfold get
  simp only [walk]
  cases child ch c <;> rfl

theorem get_empty (w : Str) : get .empty w = none := by
  cases w <;> rfl

theorem get_insert (w : Str) : ∀ (n : Node) (v u : Str), get (insert n w v) u = if u = w then some v else get n u := by
  induction w with
  | nil =>
    intro n v u
    obtain ⟨e, val, ch⟩ := n
    cases u with
    | nil => simp [insert, get_nil]
    | cons c cs => simp [insert, get_cons]
  | cons c cs ih =>
    intro n v u
    obtain ⟨e, val, ch⟩ := n
    cases u with
    | nil =>
      simp only [insert]
      cases child ch c <;> simp [get_nil]
    | cons d ds =>
      simp only [insert]
      cases hc : child ch c with
      | none =>
        simp only [get_cons, child_setChild]
        by_cases hd : d = c
        · subst hd
          simp only [if_true, ih, get_empty, hc]
          simp
        · simp [hd]
      | some m =>
        simp only [get_cons, child_setChild]
        by_cases hd : d = c
        · subst hd
          simp only [if_true, ih, hc]
          simp
        · simp [hd]

theorem walk_insert (w : Str) : ∀ (n : Node) (v u : Str),
    (walk (insert n w v) u).isSome = true ↔ ((walk n u).isSome = true ∨ u <+: w) := by
  induction w with
  | nil =>
    intro n v u
    obtain ⟨e, val, ch⟩ := n
    cases u with
    | nil => simp [walk]
    | cons c cs => simp [insert, walk]
  | cons c cs ih =>
    intro n v u
    obtain ⟨e, val, ch⟩ := n
    cases u with
    | nil => simp [walk]
    | cons d ds =>
      simp only [insert]
      have he : ∀ u, (walk Node.empty u).isSome = true → u = [] := by
        intro u; cases u <;> simp [walk, Node.empty, child]
      cases hc : child ch c with
      | none =>
        simp only [walk, child_setChild]
        by_cases hd : d = c
        · subst hd
          simp only [if_true, ih, hc, List.cons_prefix_cons, true_and]
          constructor
          · rintro (h | h)
            · rw [he _ h]; simp
            · right; exact h
          · rintro (h | h)
            · simp at h
            · right; exact h
        · simp [hd, List.cons_prefix_cons]
      | some m =>
        simp only [walk, child_setChild]
        by_cases hd : d = c
        · subst hd
          simp only [if_true, ih, hc, List.cons_prefix_cons, true_and]
        · simp [hd, List.cons_prefix_cons]

/-- No node has two entries for the same character. -/
inductive WF : Node → Prop
  | mk {e v ch} : (ch.map Prod.fst).Nodup → (∀ c n, (c, n) ∈ ch → WF n) → WF (.mk e v ch)

theorem mem_of_child {ch : List (UInt8 × Node)} {c : UInt8} {n : Node} (h : child ch c = some n) : (c, n) ∈ ch := by
  induction ch with
  | nil => simp [child] at h
  | cons p rest ih =>
    obtain ⟨d, m⟩ := p
    simp only [child] at h
    split at h
    · rename_i hd
      simp only [Option.some.injEq] at h
      subst hd h
      exact List.mem_cons_self
    · exact List.mem_cons_of_mem _ (ih h)

theorem child_of_mem {ch : List (UInt8 × Node)} {c : UInt8} {n : Node} (hn : (ch.map Prod.fst).Nodup) (h : (c, n) ∈ ch) :
    child ch c = some n := by
  induction ch with
  | nil => simp at h
  | cons p rest ih =>
    obtain ⟨d, m⟩ := p
    simp only [List.map_cons, List.nodup_cons] at hn
    simp only [child]
    rcases List.mem_cons.mp h with h | h
    · simp only [Prod.mk.injEq] at h
      rw [if_pos h.1.symm, h.2]
    · have : d ≠ c := by
        rintro rfl
        exact hn.1 (List.mem_map.mpr ⟨(d, n), h, rfl⟩)
      rw [if_neg this]
      exact ih hn.2 h

theorem child_perm {ch ch' : List (UInt8 × Node)} (hn : (ch.map Prod.fst).Nodup) (hp : ch.Perm ch') (c : UInt8) :
    child ch c = child ch' c := by
  have hn' : (ch'.map Prod.fst).Nodup := (hp.map Prod.fst).nodup_iff.mp hn
  cases h : child ch c with
  | some n => exact (child_of_mem hn' (hp.mem_iff.mp (mem_of_child h))).symm
  | none =>
    cases h' : child ch' c with
    | none => rfl
    | some n =>
      rw [child_of_mem hn (hp.mem_iff.mpr (mem_of_child h'))] at h
      exact absurd h (by simp)

theorem map_fst_setChild (ch : List (UInt8 × Node)) (c : UInt8) (n : Node) :
    (setChild ch c n).map Prod.fst = if c ∈ ch.map Prod.fst then ch.map Prod.fst else ch.map Prod.fst ++ [c] := by
  induction ch with
  | nil => simp [setChild]
  | cons p rest ih =>
    obtain ⟨d, m⟩ := p
    simp only [setChild]
    by_cases hd : d = c
    · simp [hd]
    · simp only [hd, if_false, List.map_cons, ih, List.mem_cons, Ne.symm hd, false_or]
      split <;> simp

theorem mem_setChild {ch : List (UInt8 × Node)} {c d : UInt8} {n m : Node} (h : (d, m) ∈ setChild ch c n) :
    m = n ∨ (d, m) ∈ ch := by
  induction ch with
  | nil => simp [setChild] at h; exact Or.inl h.2
  | cons p rest ih =>
    obtain ⟨k, x⟩ := p
    simp only [setChild] at h
    split at h
    · rcases List.mem_cons.mp h with h | h
      · simp only [Prod.mk.injEq] at h; exact Or.inl h.2
      · exact Or.inr (List.mem_cons_of_mem _ h)
    · rcases List.mem_cons.mp h with h | h
      · right; rw [h]; exact List.mem_cons_self
      · rcases ih h with h | h
        · exact Or.inl h
        · exact Or.inr (List.mem_cons_of_mem _ h)

theorem wf_empty : WF .empty := .mk (by simp) (by simp)

theorem wf_setChild {e v ch c n} (h : WF (.mk e v ch)) (hn : WF n) : WF (.mk e v (setChild ch c n)) := by
  cases h with
  | mk h1 h2 =>
    refine .mk ?_ ?_
    · rw [map_fst_setChild]
      split
      · exact h1
      · rename_i hc
        exact List.nodup_append.mpr ⟨h1, by simp, by simpa using fun a x hx ha => hc (by subst ha; exact List.mem_map.mpr ⟨_, hx, rfl⟩)⟩
    · intro d m hm
      rcases mem_setChild hm with rfl | hm
      · exact hn
      · exact h2 d m hm

theorem wf_insert (w : Str) : ∀ (n : Node) (v : Str), WF n → WF (insert n w v) := by
  induction w with
  | nil => intro n v h; cases h with | mk h1 h2 => exact .mk h1 h2
  | cons c cs ih =>
    intro n v h
    obtain ⟨e, val, ch⟩ := n
    simp only [insert]
    cases hc : child ch c with
    | none => exact wf_setChild h (ih _ _ wf_empty)
    | some m =>
      apply wf_setChild h
      apply ih
      cases h with | mk h1 h2 => exact h2 c m (mem_of_child hc)

theorem reorder_wf {n n' : Node} (h : Reorder n n') (hw : WF n) : WF n' := by
  induction h with
  | here hp =>
    cases hw with
    | mk h1 h2 => exact .mk ((hp.map Prod.fst).nodup_iff.mp h1) (fun c n hc => h2 c n (hp.mem_iff.mpr hc))
  | inside _ ih =>
    cases hw with
    | mk h1 h2 =>
      refine .mk (by simpa using h1) ?_
      intro d m hm
      rcases List.mem_append.mp hm with hm | hm
      · exact h2 d m (List.mem_append_left _ hm)
      · rcases List.mem_cons.mp hm with hm | hm
        · simp only [Prod.mk.injEq] at hm
          rw [hm.2]
          exact ih (h2 _ _ (List.mem_append_right _ List.mem_cons_self))
        · exact h2 d m (List.mem_append_right _ (List.mem_cons_of_mem _ hm))

theorem child_inside (l r : List (UInt8 × Node)) (c : UInt8) (n n' : Node) (d : UInt8) :
    child (l ++ (c, n) :: r) d = child (l ++ (c, n') :: r) d ∨
    (child (l ++ (c, n) :: r) d = some n ∧ child (l ++ (c, n') :: r) d = some n') := by
  induction l with
  | nil =>
    simp only [List.nil_append, child]
    split
    · right; simp
    · left; rfl
  | cons p l ih =>
    obtain ⟨k, x⟩ := p
    simp only [List.cons_append, child]
    split
    · left; rfl
    · exact ih

theorem reorder_get {n n' : Node} (h : Reorder n n') (hw : WF n) :
    ∀ u, get n u = get n' u ∧ (walk n u).isSome = (walk n' u).isSome := by
  induction h with
  | here hp =>
    intro u
    cases hw with
    | mk h1 h2 =>
      cases u with
      | nil => exact ⟨rfl, rfl⟩
      | cons c cs => simp only [get_cons, walk, child_perm h1 hp c, true_and]
  | @inside e v l c m m' r _ ih =>
    intro u
    cases hw with
    | mk h1 h2 =>
      have ih' := ih (h2 _ _ (List.mem_append_right _ List.mem_cons_self))
      cases u with
      | nil => exact ⟨rfl, rfl⟩
      | cons d ds =>
        simp only [get_cons, walk]
        rcases child_inside l r c m m' d with h | ⟨h, h'⟩
        · rw [h]; exact ⟨rfl, rfl⟩
        · rw [h, h']; exact ih' ds

mutual
theorem dfs_ge : ∀ (n : Node) (cur r : Str), r.length ≤ (dfs n cur r).length ∧
    (∀ w v, get n w = some v → (cur ++ w).length ≤ (dfs n cur r).length)
  | .mk e val ch, cur, r => by
    simp only [dfs]
    have h := dfsList_ge ch cur (if e then (if r.length < cur.length then cur else r) else r)
    have h0 : r.length ≤ (if e then (if r.length < cur.length then cur else r) else r).length := by
      split
      · split <;> omega
      · omega
    refine ⟨by omega, ?_⟩
    intro w v hw
    cases w with
    | nil =>
      simp only [get_nil] at hw
      split at hw
      · rename_i he
        have : cur.length ≤ (if e then (if r.length < cur.length then cur else r) else r).length := by
          simp only [he, if_true]; split <;> omega
        simp only [List.append_nil]; omega
      · simp at hw
    | cons c cs =>
      simp only [get_cons] at hw
      cases hc : child ch c with
      | none => rw [hc] at hw; simp at hw
      | some m =>
        rw [hc] at hw
        have := h.2 c m (mem_of_child hc) cs v hw
        simpa using this
theorem dfsList_ge : ∀ (ch : List (UInt8 × Node)) (cur r : Str), r.length ≤ (dfsList ch cur r).length ∧
    (∀ c m, (c, m) ∈ ch → ∀ w v, get m w = some v → (cur ++ c :: w).length ≤ (dfsList ch cur r).length)
  | [], cur, r => by simp [dfsList]
  | (c, n) :: rest, cur, r => by
    simp only [dfsList]
    have h1 := dfs_ge n (cur ++ [c]) r
    have h2 := dfsList_ge rest cur (dfs n (cur ++ [c]) r)
    refine ⟨by omega, ?_⟩
    intro d m hm w v hw
    rcases List.mem_cons.mp hm with hm | hm
    · simp only [Prod.mk.injEq] at hm
      obtain ⟨rfl, rfl⟩ := hm
      have := h1.2 w v hw
      have e : (cur ++ d :: w).length = (cur ++ [d] ++ w).length := by simp
      omega
    · exact h2.2 d m hm w v hw
end

mutual
theorem dfs_stored : ∀ (n : Node), WF n → ∀ (cur r : Str), dfs n cur r = r ∨ ∃ w v, get n w = some v ∧ dfs n cur r = cur ++ w
  | .mk e val ch, hw, cur, r => by
    have h1 : (ch.map Prod.fst).Nodup := by cases hw with | mk h1 _ => exact h1
    have h2 : ∀ c n, (c, n) ∈ ch → WF n := by cases hw with | mk _ h2 => exact h2
    simp only [dfs]
    rcases dfsList_stored ch h2 cur (if e then (if r.length < cur.length then cur else r) else r) with h | ⟨c, m, hm, w, v, hg, h⟩
    · rw [h]
      split
      · rename_i he
        split
        · right
          exact ⟨[], val, by simp [get_nil, he], by simp⟩
        · left; rfl
      · left; rfl
    · right
      refine ⟨c :: w, v, ?_, h⟩
      simp only [get_cons, child_of_mem h1 hm, hg]
theorem dfsList_stored : ∀ (ch : List (UInt8 × Node)), (∀ c n, (c, n) ∈ ch → WF n) → ∀ (cur r : Str), dfsList ch cur r = r ∨
    ∃ c m, (c, m) ∈ ch ∧ ∃ w v, get m w = some v ∧ dfsList ch cur r = cur ++ c :: w
  | [], _, cur, r => by simp [dfsList]
  | (c, n) :: rest, hw, cur, r => by
    simp only [dfsList]
    have ha := dfs_stored n (hw c n List.mem_cons_self) (cur ++ [c]) r
    have hb := dfsList_stored rest (fun c n h => hw c n (List.mem_cons_of_mem _ h)) cur (dfs n (cur ++ [c]) r)
    rcases hb with h | ⟨d, m, hm, w, v, hg, h⟩
    · rw [h]
      rcases ha with h' | ⟨w, v, hg, h'⟩
      · left; exact h'
      · right
        exact ⟨c, n, List.mem_cons_self, w, v, hg, by rw [h']; simp⟩
    · right
      exact ⟨d, m, List.mem_cons_of_mem _ hm, w, v, hg, h⟩
end

theorem walk_append (u : Str) : ∀ (n : Node) (w : Str), walk n (u ++ w) = (walk n u).bind (fun m => walk m w) := by
  induction u with
  | nil => intro n w; simp [walk]
  | cons c cs ih =>
    intro n w
    obtain ⟨e, v, ch⟩ := n
    simp only [List.cons_append, walk]
    cases child ch c with
    | none => rfl
    | some m => exact ih m w

theorem walk_wf (u : Str) : ∀ (n m : Node), WF n → walk n u = some m → WF m := by
  induction u with
  | nil => intro n m h e; simp [walk] at e; rw [← e]; exact h
  | cons c cs ih =>
    intro n m h e
    obtain ⟨b, v, ch⟩ := n
    simp only [walk] at e
    cases hc : child ch c with
    | none => rw [hc] at e; simp at e
    | some x =>
      rw [hc] at e
      cases h with | mk h1 h2 => exact ih x m (h2 c x (mem_of_child hc)) e

end Verif.Trie
