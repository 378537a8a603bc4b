import Verif.Model.Lexer
import Verif.Spec.Lexer
import Mathlib.Data.List.Forall2

/-! Helper lemmas for the lexer: every pattern of the table matches exactly the tokens of its kind. -/
namespace Verif.Lexer
open LexerSpec

/-- The result of a matcher that does not diverge. -/
def Res.ofOption : Option Nat → Res
  | none => .fail
  | some n => .ok n

theorem manyLoop_charClass (p : Char → Bool) : ∀ (fuel : Nat) (r : List Char), r.length < fuel →
    manyLoop (charClass p) fuel r = .ok (r.takeWhile p).length := by
  intro fuel
  induction fuel with
  | zero => intro r h; omega
  | succ f ih =>
    intro r h
    cases r with
    | nil => simp [manyLoop, charClass]
    | cons c t =>
      by_cases hc : p c = true
      · simp only [List.length_cons] at h
        simp [manyLoop, charClass, hc, ih t (by omega), Nat.add_comm]
      · simp [manyLoop, charClass, hc]

theorem many_charClass (p : Char → Bool) (r : List Char) :
    many (charClass p) r = .ok (r.takeWhile p).length :=
  manyLoop_charClass p _ r (by omega)

theorem notText_single (c : Char) (r : List Char) : notText [c] r = charClass (· != c) r := by
  cases r with
  | nil => rfl
  | cons d t =>
    by_cases h : d = c <;> simp [notText, charClass, h]

theorem toLower_toNat (c : Char) (h : c.isUpper = true) : c.toLower.toNat = c.toNat + 32 := by
  have h' : c.val ≥ 'A'.val ∧ c.val ≤ 'Z'.val := by simpa [Char.isUpper] using h
  unfold Char.toLower
  rw [dif_pos h']
  show (c.val + ('a'.val - 'A'.val)).toNat = c.val.toNat + 32
  have h2 : c.val.toNat ≤ 90 := h'.2
  rw [UInt32.toNat_add]
  have : ('a'.val - 'A'.val).toNat = 32 := by decide
  rw [this]; omega
theorem toLower_not_upper (c : Char) (h : ¬ c.isUpper = true) : c.toLower = c := by
  have h' : ¬ (c.val ≥ 'A'.val ∧ c.val ≤ 'Z'.val) := by simpa [Char.isUpper] using h
  unfold Char.toLower
  rw [dif_neg h']
theorem isUpper_iff (c : Char) : c.isUpper = true ↔ 65 ≤ c.toNat ∧ c.toNat ≤ 90 := by
  simp [Char.isUpper, UInt32.le_iff_toNat_le]
theorem isLower_iff (c : Char) : c.isLower = true ↔ 97 ≤ c.toNat ∧ c.toNat ≤ 122 := by
  simp [Char.isLower, UInt32.le_iff_toNat_le]
theorem isAlpha_iff (c : Char) : c.isAlpha = true ↔ (65 ≤ c.toNat ∧ c.toNat ≤ 90) ∨ (97 ≤ c.toNat ∧ c.toNat ≤ 122) := by
  rw [← isUpper_iff, ← isLower_iff]; simp [Char.isAlpha]
theorem toLower_symbol (c d : Char) (h : d.isAlpha = false) : c.toLower = d ↔ c = d := by
  have hd : ¬ ((65 ≤ d.toNat ∧ d.toNat ≤ 90) ∨ (97 ≤ d.toNat ∧ d.toNat ≤ 122)) := by
    rw [← isAlpha_iff]; simp [h]
  by_cases hc : c.isUpper = true
  · have h1 := toLower_toNat c hc
    rw [isUpper_iff] at hc
    constructor
    · rintro rfl; omega
    · rintro rfl; omega
  · rw [toLower_not_upper c hc]

theorem textSeq_single (c : Char) (ci : Bool) (hc : c.isAlpha = false) (r : List Char) :
    textSeq [c] ci r = charClass (· == c) r := by
  have hl : c.toLower = c := (toLower_symbol c c hc).mpr rfl
  cases r with
  | nil => cases ci <;> simp [textSeq, charClass, asLower]
  | cons d t => cases ci <;> simp [textSeq, charClass, asLower, hl, toLower_symbol d c hc]

theorem textSeq_fixed (s : String) (hs : s.toList.map Char.toLower = s.toList) (r : List Char) :
    textSeq s.toList true r = Res.ofOption (fixedLen s r) := by
  unfold textSeq fixedLen
  have h1 : asLower s.toList = s.toList := hs
  simp only [if_true, h1, Bool.not_true, Bool.false_and, Bool.true_and, Bool.false_or, String.length_toList, decide_eq_true_eq]
  by_cases hl : s.length ≤ r.length
  · rw [if_pos hl]
    by_cases he : (r.take s.length).map Char.toLower = s.toList
    · rw [if_pos he, if_pos (show asLower _ = _ from he)]; rfl
    · rw [if_neg he, if_neg (show ¬ asLower _ = _ from he)]; rfl
  · rw [if_neg hl, if_neg]
    · rfl
    · intro he
      have := congrArg List.length he
      simp only [List.length_map, List.length_take, String.length_toList] at this
      omega

theorem comment_matches (r : List Char) : commentPattern.matcher r = Res.ofOption (commentLen r) := by
  unfold commentPattern
  have h : many (notText ['\n']) = many (charClass (· != '\n')) := by
    unfold many; rw [show notText ['\n'] = charClass (· != '\n') from funext (notText_single _)]
  rw [h]
  cases r with
  | nil => rfl
  | cons c t =>
    simp only [allOf, textSeq_single '#' true (by decide), many_charClass, charClass]
    by_cases hc : c = '#'
    · subst hc; simp [commentLen, Res.ofOption]
    · simp [commentLen, hc, Res.ofOption]

/-- One step inside a string. -/
theorem string_step (q : Char) (hq : q ≠ '\\') (r : List Char) :
    anyOf [textSeq ['\\', q] false, notText [q]] r =
      match r with
      | [] => .fail
      | [c] => if c = q then .fail else .ok 1
      | c :: d :: _ => if c = '\\' ∧ d = q then .ok 2 else if c = q then .fail else .ok 1 := by
  match r with
  | [] => rfl
  | [c] => simp only [anyOf, notText_single, charClass]; by_cases h : c = q <;> simp [textSeq, h]
  | c :: d :: t =>
    simp only [anyOf, notText_single, charClass]
    by_cases h : c = '\\' ∧ d = q
    · obtain ⟨rfl, rfl⟩ := h; simp [textSeq]
    · rw [if_neg h]
      have : textSeq ['\\', q] false (c :: d :: t) = .fail := by
        simp only [not_and] at h
        simp [textSeq]
        exact h
      rw [this]
      by_cases h : c = q <;> simp [h]

theorem string_body (q : Char) (hq : q ≠ '\\') : ∀ (fuel : Nat) (r : List Char), r.length < fuel →
    ∃ k, manyLoop (anyOf [textSeq ['\\', q] false, notText [q]]) fuel r = .ok k ∧
      ((closeLen q r = some (k + 1) ∧ ∃ t, r.drop k = q :: t) ∨ (closeLen q r = none ∧ r.drop k = [])) := by
  intro fuel
  induction fuel with
  | zero => intro r h; omega
  | succ f ih =>
    intro r h
    unfold manyLoop
    rw [string_step q hq]
    match r, h with
    | [], _ => exact ⟨0, rfl, Or.inr ⟨rfl, rfl⟩⟩
    | [c], h =>
      by_cases hc : c = q
      · subst hc; exact ⟨0, by simp, Or.inl ⟨by simp [closeLen], [], rfl⟩⟩
      · obtain ⟨k, hk, hcl⟩ := ih [] (by simp at h ⊢; omega)
        refine ⟨1 + k, ?_, Or.inr ⟨by simp [closeLen, hc], by simp [Nat.add_comm]⟩⟩
        simp [hc, hk]
    | c :: d :: t, h =>
      simp only [List.length_cons] at h
      by_cases he : c = '\\' ∧ d = q
      · obtain ⟨k, hk, hcl⟩ := ih t (by omega)
        refine ⟨2 + k, by simp [he, hk], ?_⟩
        rcases hcl with ⟨h1, h2⟩ | ⟨h1, h2⟩
        · refine Or.inl ⟨by simp [closeLen, he, h1]; omega, ?_⟩
          rw [Nat.add_comm]; simpa using h2
        · refine Or.inr ⟨by simp [closeLen, he, h1], ?_⟩
          rw [Nat.add_comm]; simpa using h2
      · by_cases hc : c = q
        · refine ⟨0, by simp [hc, hq], Or.inl ⟨?_, d :: t, by simp [hc]⟩⟩
          rw [closeLen, if_neg he, if_pos hc]
        · obtain ⟨k, hk, hcl⟩ := ih (d :: t) (by simp; omega)
          refine ⟨1 + k, by simp [he, hc, hk], ?_⟩
          rcases hcl with ⟨h1, h2⟩ | ⟨h1, h2⟩
          · refine Or.inl ⟨by rw [closeLen, if_neg he, if_neg hc, h1]; simp; omega, ?_⟩
            rw [Nat.add_comm]; simpa using h2
          · refine Or.inr ⟨by rw [closeLen, if_neg he, if_neg hc, h1]; rfl, ?_⟩
            rw [Nat.add_comm]; simpa using h2

theorem stringMatcher_eq (q : Char) (hq : q ≠ '\\') (ha : q.isAlpha = false) (r : List Char) :
    stringMatcher q r = Res.ofOption (match r with
      | [] => none
      | c :: t => if c = q then (closeLen q t).map (1 + ·) else none) := by
  unfold stringMatcher
  cases r with
  | nil => simp [allOf, textSeq_single q true ha, charClass, Res.ofOption]
  | cons c t =>
    simp only [allOf, textSeq_single q true ha, charClass]
    by_cases hc : c = q
    · subst hc
      obtain ⟨k, hk, hcl⟩ := string_body c hq (t.length + 1) t (by omega)
      have hk' : many (anyOf [textSeq ['\\', c] false, notText [c]]) t = .ok k := hk
      simp only [beq_self_eq_true, if_true, List.drop_succ_cons, List.drop_zero, hk']
      rcases hcl with ⟨h1, t', h2⟩ | ⟨h1, h2⟩
      · simp only [h2, h1]; simp [Res.ofOption]
      · simp only [h2, h1]; simp [Res.ofOption]
    · simp [hc, Res.ofOption]

theorem string_matches (r : List Char) : stringPattern.matcher r = Res.ofOption (stringLen r) := by
  unfold stringPattern
  simp only [anyOf, stringMatcher_eq '"' (by decide) (by decide), stringMatcher_eq '\'' (by decide) (by decide)]
  cases r with
  | nil => rfl
  | cons c t =>
    by_cases h1 : c = '"'
    · subst h1
      simp only [stringLen, if_true]
      cases closeLen '"' t <;> simp [Res.ofOption]
    · by_cases h2 : c = '\''
      · subst h2
        simp only [stringLen, if_true]
        cases closeLen '\'' t <;> simp [Res.ofOption]
      · simp [stringLen, h1, h2, Res.ofOption]

theorem drop_takeWhile (p : Char → Bool) (r : List Char) : r.drop (r.takeWhile p).length = r.dropWhile p := by
  induction r with
  | nil => rfl
  | cons c t ih => by_cases h : p c <;> simp [h, ih]

theorem number_matches (r : List Char) : numberPattern.matcher r = Res.ofOption (numberLen r) := by
  unfold numberPattern numberLen
  simp only [allOf, many_charClass, optional, textSeq_single '.' false (by decide), drop_takeWhile]
  cases hd : r.dropWhile Char.isDigit with
  | nil => simp [charClass, Res.ofOption]
  | cons c t =>
    by_cases hc : c = '.'
    · subst hc; simp [charClass, Res.ofOption]; omega
    · have hnd : c.isDigit = false := by
        have := List.head?_dropWhile_not Char.isDigit r
        simpa [hd] using this
      simp [charClass, hc, Res.ofOption, hnd]

theorem word_matches (r : List Char) : wordPattern.matcher r = Res.ofOption (wordLen r) := by
  unfold wordPattern
  cases r with
  | nil => rfl
  | cons c t =>
    simp only [allOf, many_charClass, charClass, wordLen]
    by_cases h : c.isAlpha = true
    · simp only [h, if_true, List.drop_succ_cons, List.drop_zero]
      rfl
    · simp [h, Res.ofOption]

/-- A pattern and the kind of token it recognises. -/
def Agrees (p : Pattern) (k : Kind) : Prop :=
  p.label = k.label ∧ p.skip = k.skip ∧ ∀ r, p.matcher r = Res.ofOption (k.len r)

theorem token_agrees (label s : String) (hs : s.toList.map Char.toLower = s.toList) :
    Agrees (createToken label s) ⟨label, false, fixedLen s⟩ := ⟨rfl, rfl, textSeq_fixed s hs⟩

theorem skipped_agrees (label s : String) (hs : s.toList.map Char.toLower = s.toList) :
    Agrees (createSkippedToken label s) ⟨label, true, fixedLen s⟩ := ⟨rfl, rfl, textSeq_fixed s hs⟩

theorem reserved_lower : ∀ s ∈ reserved, s.toList.map Char.toLower = s.toList := by decide +kernel

theorem table_agrees : List.Forall₂ Agrees table kinds := by
  unfold table kinds
  apply List.rel_append
  · rw [List.forall₂_map_left_iff, List.forall₂_map_right_iff]
    have : keywords = reserved := rfl
    rw [this, List.forall₂_same]
    intro s hs
    exact token_agrees _ s (reserved_lower s hs)
  · refine .cons ⟨rfl, rfl, comment_matches⟩ (.cons ⟨rfl, rfl, string_matches⟩ (.cons ⟨rfl, rfl, number_matches⟩
      (.cons ⟨rfl, rfl, word_matches⟩ ?_)))
    repeat first
      | exact .nil
      | refine .cons (token_agrees _ _ (by decide)) ?_
      | refine .cons (skipped_agrees _ _ (by decide)) ?_

/-- What `findLongestMatch` knows after the kinds `pre`. -/
def BestSoFar (r : List Char) (pre : List Kind) : Option (Pattern × Nat) → Prop
  | none => ∀ k ∈ pre, k.len r = none
  | some (p, n) => ∃ k, Agrees p k ∧ Best pre r k n

theorem findLongest_spec (r : List Char) : ∀ (ps : List Pattern) (ks pre : List Kind) (best : Option (Pattern × Nat)),
    List.Forall₂ Agrees ps ks → BestSoFar r pre best →
    ∃ res, findLongest ps r best = some res ∧ BestSoFar r (pre ++ ks) res := by
  intro ps
  induction ps with
  | nil =>
    intro ks pre best h hb
    cases h
    exact ⟨best, rfl, by simpa using hb⟩
  | cons p ps ih =>
    intro ks pre best h hb
    cases h with
    | cons hpk hrest =>
      rename_i k ks
      have happ : pre ++ k :: ks = (pre ++ [k]) ++ ks := by simp
      rw [happ]
      unfold findLongest
      rw [hpk.2.2 r]
      cases hk : k.len r with
      | none =>
        apply ih _ _ _ hrest
        cases best with
        | none =>
          intro k' hk'
          rcases List.mem_append.mp hk' with h1 | h1
          · exact hb k' h1
          · rw [List.mem_singleton.mp h1]; exact hk
        | some pn =>
          obtain ⟨p0, n0⟩ := pn
          obtain ⟨k0, ha, bef, aft, he, h1, h2, h3⟩ := hb
          refine ⟨k0, ha, bef, aft ++ [k], by simp [he], h1, h2, ?_⟩
          intro k' hk' m hm
          rcases List.mem_append.mp hk' with h4 | h4
          · exact h3 k' h4 m hm
          · rw [List.mem_singleton.mp h4, hk] at hm; simp at hm
      | some n =>
        cases best with
        | none =>
          apply ih _ _ _ hrest
          refine ⟨k, hpk, pre, [], by simp, hk, ?_, by simp⟩
          intro k' hk' m hm
          rw [hb k' hk'] at hm; simp at hm
        | some pn =>
          obtain ⟨p0, n0⟩ := pn
          obtain ⟨k0, ha, bef, aft, he, h1, h2, h3⟩ := hb
          simp only [Res.ofOption]
          by_cases hlt : n0 < n
          · rw [if_pos hlt]
            apply ih _ _ _ hrest
            refine ⟨k, hpk, pre, [], by simp, hk, ?_, by simp⟩
            intro k' hk' m hm
            rw [he] at hk'
            rcases List.mem_append.mp hk' with h4 | h4
            · have := h2 k' h4 m hm; omega
            · rcases List.mem_cons.mp h4 with h5 | h5
              · rw [h5, h1] at hm
                have : n0 = m := by simpa using hm
                omega
              · have := h3 k' h5 m hm; omega
          · rw [if_neg hlt]
            apply ih _ _ _ hrest
            refine ⟨k0, ha, bef, aft ++ [k], by simp [he], h1, h2, ?_⟩
            intro k' hk' m hm
            rcases List.mem_append.mp hk' with h4 | h4
            · exact h3 k' h4 m hm
            · rw [List.mem_singleton.mp h4, hk] at hm
              have : n = m := by simpa using hm
              omega

theorem findLongest_table (r : List Char) :
    ∃ res, findLongest table r none = some res ∧ BestSoFar r kinds res := by
  obtain ⟨res, h1, h2⟩ := findLongest_spec r table kinds [] none table_agrees (by intro k hk; simp at hk)
  exact ⟨res, h1, by simpa using h2⟩

theorem _root_.Verif.LexerSpec.Best.unique {ks : List Kind} {r : List Char} {k k' : Kind} {n n' : Nat}
    (h : Best ks r k n) (h' : Best ks r k' n') : k = k' ∧ n = n' := by
  obtain ⟨b, a, he, h1, h2, h3⟩ := h
  obtain ⟨b', a', he', h1', h2', h3'⟩ := h'
  have hcmp := List.append_eq_append_iff.mp (he ▸ he')
  rcases hcmp with ⟨c, hb, hc⟩ | ⟨c, hb, hc⟩
  · cases c with
    | nil =>
      simp only [List.nil_append, List.cons.injEq] at hc
      obtain ⟨rfl, -⟩ := hc
      rw [h1] at h1'; exact ⟨rfl, by simpa using h1'⟩
    | cons x c =>
      simp only [List.cons_append, List.cons.injEq] at hc
      obtain ⟨rfl, hc⟩ := hc
      have e1 := h2' k (by simp [hb]) n h1
      have e2 := h3 k' (by simp [hc]) n' h1'
      omega
  · cases c with
    | nil =>
      simp only [List.nil_append, List.cons.injEq] at hc
      obtain ⟨rfl, -⟩ := hc
      rw [h1] at h1'; exact ⟨rfl, by simpa using h1'⟩
    | cons x c =>
      simp only [List.cons_append, List.cons.injEq] at hc
      obtain ⟨rfl, hc⟩ := hc
      have e1 := h2 k' (by simp [hb]) n' h1'
      have e2 := h3' k (by simp [hc]) n h1
      omega

theorem fixedLen_le (s : String) (r : List Char) (n : Nat) (h : fixedLen s r = some n) : n ≤ r.length := by
  unfold fixedLen at h
  split at h
  · rename_i he
    have := congrArg List.length he
    simp only [List.length_map, List.length_take, String.length_toList] at this
    simp only [Option.some.injEq] at h
    omega
  · simp at h

theorem takeWhile_le (p : Char → Bool) (r : List Char) : (r.takeWhile p).length ≤ r.length :=
  (List.takeWhile_sublist p).length_le

theorem closeLen_le (q : Char) : ∀ (r : List Char) (n : Nat), closeLen q r = some n → n ≤ r.length := by
  intro r
  induction r using closeLen.induct q with
  | case1 => intro n h; simp [closeLen] at h
  | case2 => intro n h; simp [closeLen] at h; simp; omega
  | case3 c hc => intro n h; simp [closeLen, hc] at h
  | case4 c d t he ih =>
    intro n h
    rw [closeLen, if_pos he] at h
    simp only [Option.map_eq_some_iff] at h
    obtain ⟨m, hm, rfl⟩ := h
    have := ih m hm
    simp; omega
  | case5 d t hne =>
    intro n h
    rw [closeLen, if_neg hne, if_pos rfl] at h
    simp at h; simp; omega
  | case6 c d t hne hc ih =>
    intro n h
    rw [closeLen, if_neg hne, if_neg hc] at h
    simp only [Option.map_eq_some_iff] at h
    obtain ⟨m, hm, rfl⟩ := h
    have := ih m hm
    simp at this ⊢; omega

theorem kinds_le : ∀ k ∈ kinds, ∀ r n, k.len r = some n → n ≤ r.length := by
  have hf : ∀ (s : String) (r : List Char) (n : Nat), fixedLen s r = some n → n ≤ r.length := fixedLen_le
  intro k hk r n h
  unfold kinds at hk
  rcases List.mem_append.mp hk with hk | hk
  · obtain ⟨s, hs, rfl⟩ := List.mem_map.mp hk
    exact hf s r n h
  · simp only [List.mem_cons, List.not_mem_nil, or_false] at hk
    rcases hk with rfl | rfl | rfl | rfl | hk
    · simp only at h
      unfold commentLen at h
      split at h
      · rename_i t
        have := takeWhile_le (· != '\n') t
        simp at h; simp; omega
      · simp at h
    · simp only at h
      unfold stringLen at h
      split at h
      · rename_i t
        simp only [Option.map_eq_some_iff] at h
        obtain ⟨m, hm, rfl⟩ := h
        have := closeLen_le _ _ _ hm
        simp; omega
      · rename_i t
        simp only [Option.map_eq_some_iff] at h
        obtain ⟨m, hm, rfl⟩ := h
        have := closeLen_le _ _ _ hm
        simp; omega
      · simp at h
    · simp only at h
      unfold numberLen at h
      dsimp only at h
      have hl := List.takeWhile_append_dropWhile (p := Char.isDigit) (l := r)
      have hlen := congrArg List.length hl
      rw [List.length_append] at hlen
      split at h
      · rename_i t ht
        have := takeWhile_le Char.isDigit t
        rw [ht] at hlen
        simp at h hlen; omega
      · simp at h; omega
    · simp only at h
      unfold wordLen at h
      split at h
      · rename_i c t
        split at h
        · have := takeWhile_le wordChar t
          simp at h; simp; omega
        · simp at h
      · simp at h
    · rcases hk with rfl | rfl | rfl | rfl | rfl | rfl | rfl | rfl | rfl | rfl | rfl | rfl | rfl | rfl | rfl | rfl | rfl | rfl <;>
        exact hf _ r n h

theorem _root_.Verif.LexerSpec.Best.mem {ks : List Kind} {r : List Char} {k : Kind} {n : Nat} (h : Best ks r k n) :
    k ∈ ks ∧ k.len r = some n := by
  obtain ⟨b, a, he, h1, -, -⟩ := h
  exact ⟨by simp [he], h1⟩

theorem _root_.Verif.LexerSpec.Best.max {ks : List Kind} {r : List Char} {k : Kind} {n : Nat} (h : Best ks r k n) :
    ∀ k' ∈ ks, ∀ m, k'.len r = some m → m ≤ n := by
  obtain ⟨b, a, he, h1, h2, h3⟩ := h
  intro k' hk' m hm
  rw [he] at hk'
  rcases List.mem_append.mp hk' with h4 | h4
  · exact Nat.le_of_lt (h2 k' h4 m hm)
  · rcases List.mem_cons.mp h4 with h5 | h5
    · rw [h5, h1] at hm; have : n = m := by simpa using hm
      omega
    · exact h3 k' h5 m hm

/-- The token reported for a piece. -/
def tokenOf (p : Piece) : Token := ⟨p.kind.label, p.value, p.offset⟩

/-- The tokens reported for a list of pieces. -/
def tokensOf (ps : List Piece) : List Token := (ps.filter (fun p => !p.kind.skip)).map tokenOf

theorem lexLoop_piece (off : Nat) (k : Kind) (v more : List Char) (found : List Token) (hv : v ≠ [])
    (hb : Best kinds (v ++ more) k v.length) :
    lexLoop table off (v ++ more) found =
      lexLoop table (off + v.length) more (found ++ tokensOf [⟨k, v, off⟩]) := by
  obtain ⟨res, h1, h2⟩ := findLongest_table (v ++ more)
  cases res with
  | none =>
    have := h2 k hb.mem.1
    rw [hb.mem.2] at this; simp at this
  | some pn =>
    obtain ⟨p, n⟩ := pn
    obtain ⟨k', ha, hb'⟩ := h2
    obtain ⟨rfl, rfl⟩ := hb'.unique hb
    have hne : v ++ more ≠ [] := by simp [hv]
    have hlen : v.length ≠ 0 := by simp [hv]
    conv_lhs => unfold lexLoop
    rw [dif_neg hne, h1]
    simp only [hlen, dite_false, List.drop_left, List.take_left]
    congr 1
    obtain ⟨hl, hs, -⟩ := ha
    unfold tokensOf tokenOf
    rw [hs, hl]
    cases hk : k'.skip <;> simp [hk, List.filter_cons]

theorem lexLoop_tiles {off : Nat} {r rest : List Char} {ps : List Piece} (h : Tiles kinds off r ps rest) :
    ∀ found, lexLoop table off r found =
      lexLoop table (off + (r.length - rest.length)) rest (found ++ tokensOf ps) ∧ rest.length ≤ r.length := by
  induction h with
  | done off rest => intro found; simp [tokensOf]
  | piece off k v more rest ps hv hb _ ih =>
    intro found
    obtain ⟨h1, h2⟩ := ih (found ++ tokensOf [⟨k, v, off⟩])
    rw [lexLoop_piece off k v more found hv hb, h1]
    refine ⟨?_, by simp; omega⟩
    congr 1
    · simp; omega
    · simp [tokensOf, List.filter_cons]; split <;> simp

/-- No kind of token can start here. -/
def Stuck (r : List Char) : Prop := r ≠ [] ∧ ∀ k ∈ kinds, ∀ n, k.len r = some n → n = 0

theorem lexLoop_stuck (off : Nat) (r : List Char) (found : List Token) (h : Stuck r) :
    lexLoop table off r found = .syntaxError off := by
  obtain ⟨res, h1, h2⟩ := findLongest_table r
  unfold lexLoop
  rw [dif_neg h.1, h1]
  cases res with
  | none => rfl
  | some pn =>
    obtain ⟨p, n⟩ := pn
    obtain ⟨k, ha, hb⟩ := h2
    have : n = 0 := h.2 k hb.mem.1 n hb.mem.2
    simp [this]

theorem tiles_exists : ∀ (m : Nat) (off : Nat) (r : List Char), r.length ≤ m →
    ∃ ps rest, Tiles kinds off r ps rest ∧ (rest = [] ∨ Stuck rest) := by
  intro m
  induction m with
  | zero =>
    intro off r h
    have : r = [] := by simpa using h
    subst this
    exact ⟨[], [], .done off [], Or.inl rfl⟩
  | succ m ih =>
    intro off r h
    by_cases hr : r = []
    · subst hr; exact ⟨[], [], .done off [], Or.inl rfl⟩
    · obtain ⟨res, h1, h2⟩ := findLongest_table r
      cases res with
      | none =>
        refine ⟨[], r, .done off r, Or.inr ⟨hr, ?_⟩⟩
        intro k hk n hn
        rw [h2 k hk] at hn; simp at hn
      | some pn =>
        obtain ⟨p, n⟩ := pn
        obtain ⟨k, ha, hb⟩ := h2
        by_cases hn : n = 0
        · subst hn
          refine ⟨[], r, .done off r, Or.inr ⟨hr, ?_⟩⟩
          intro k' hk' j hj
          have := hb.max k' hk' j hj
          omega
        · have hle := kinds_le k hb.mem.1 r n hb.mem.2
          have hlen : (r.take n).length = n := by simp [hle]
          obtain ⟨ps, rest, ht, hs⟩ := ih (off + n) (r.drop n) (by simp; omega)
          refine ⟨⟨k, r.take n, off⟩ :: ps, rest, ?_, hs⟩
          have := Tiles.piece (ks := kinds) off k (r.take n) (r.drop n) rest ps
            (by intro h0; rw [h0] at hlen; simp at hlen; omega)
            (by rw [List.take_append_drop, hlen]; exact hb) (by rw [hlen]; exact ht)
          rwa [List.take_append_drop] at this

theorem tiles_concat {ks : List Kind} {off : Nat} {r rest : List Char} {ps : List Piece}
    (h : Tiles ks off r ps rest) : r = ps.flatMap (·.value) ++ rest := by
  induction h with
  | done => rfl
  | piece off k v more rest ps hv hb _ ih => simp [← ih]

end Verif.Lexer
