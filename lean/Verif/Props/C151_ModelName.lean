import Verif.Model.ModelName
import Verif.Props.C142_TaskFiles
import Verif.Spec.Lexer

/-!
# C151: the name of a model

Recorded disagreements:
* the empty name is accepted; saving such a model with overwriting removes the whole repository (`C151_empty_violated`);
* a name that is refused stays in the builder (`C151_kept_violated`);
* a task can have a name (in quotes) that no model may have: its creation fails (`C151_task_violated`).
-/
namespace Verif.ModelName
open Verif.TextCodec (Str)
open Verif.ModelFiles Verif.Interrupted Verif.Dsl

/-! ### Specification -/

/-- The letters that names are made of. -/
def letters : List UInt8 := text "ABCDEFGHIJKLMNOPQRSTUVWXYZabcdefghijklmnopqrstuvwxyz0123456789_"

/-! ### Helpers -/

theorem letter_iff : ∀ c : UInt8, (¬ (128 ≤ c ∧ c ≠ 255) ∧ (c ≠ 255 ∧ isAlnum c = true ∨ c = 95)) ↔ c ∈ letters := by
  have h : ∀ n : Fin 256, (¬ (128 ≤ UInt8.ofNat n.val ∧ UInt8.ofNat n.val ≠ 255) ∧ (UInt8.ofNat n.val ≠ 255 ∧ isAlnum (UInt8.ofNat n.val) = true ∨ UInt8.ofNat n.val = 95)) ↔
      UInt8.ofNat n.val ∈ letters := by decide +kernel
  intro c
  have := h ⟨c.toNat, c.toNat_lt⟩
  simpa using this

theorem check_cons (c : UInt8) (s : Str) : checkName (c :: s) = .accepted ↔ c ∈ letters ∧ checkName s = .accepted := by
  rw [← letter_iff, checkName]
  split
  · rename_i h
    simp [h]
  · rename_i h
    split
    · rename_i h2
      simp only [h, h2, not_false_eq_true, and_self, true_and]
    · rename_i h2
      simp [h2]

theorem check_append (s t : Str) : checkName (s ++ t) = .accepted ↔ checkName s = .accepted ∧ checkName t = .accepted := by
  induction s with
  | nil => simp [checkName]
  | cons c s ih => rw [List.cons_append, check_cons, check_cons, ih]; tauto

theorem hexDigit_letter : ∀ d, d < 16 → hexDigit d ∈ letters := by decide +kernel

theorem check_hex (n : Nat) : checkName (hex n) = .accepted ∧ hex n ≠ [] := by
  induction n using Nat.strongRecOn with
  | ind n ih =>
    rw [hex]
    split
    · rename_i h
      exact ⟨(check_cons _ _).2 ⟨hexDigit_letter n h, rfl⟩, by simp⟩
    · rename_i h
      refine ⟨(check_append _ _).2 ⟨(ih (n / 16) (by omega)).1, (check_cons _ _).2 ⟨hexDigit_letter _ (Nat.mod_lt _ (by omega)), rfl⟩⟩, by simp⟩

theorem decDigit_letter : ∀ d, d < 10 → UInt8.ofNat (48 + d) ∈ letters := by decide +kernel

theorem check_dec (n : Nat) : checkName (Decimal.dec n) = .accepted := by
  induction n using Nat.strongRecOn with
  | ind n ih =>
    rw [Decimal.dec]
    split
    · rename_i h
      exact (check_cons _ _).2 ⟨decDigit_letter n h, rfl⟩
    · rename_i h
      exact (check_append _ _).2 ⟨ih (n / 10) (by omega), (check_cons _ _).2 ⟨decDigit_letter _ (Nat.mod_lt _ (by omega)), rfl⟩⟩

theorem last_call (cs : List Call) : ∀ b, checkName b.name = .accepted → (calls b cs).1 = .accepted → checkName (calls b cs).2.name = .accepted := by
  induction cs with
  | nil => intro b hb _; exact hb
  | cons c cs ih =>
    intro b hb h
    rw [calls] at h ⊢
    split at h
    · rename_i h1
      rw [if_pos h1]
      refine ih _ ?_ h
      cases c with
      | name n => exact h1
      | repo p => exact hb
    · rename_i h1
      exact absurd h h1

/-! ### C151 -/

/-- A name is accepted if all its characters are ASCII letters, digits or underscores, and not otherwise. -/
theorem C151_accepted (n : Str) : checkName n = .accepted ↔ ∀ c ∈ n, c ∈ letters := by
  induction n with
  | nil => simp [checkName]
  | cons c s ih => rw [check_cons, ih]; simp

/-- The names and the repositories in some calls. -/
def namesIn (cs : List Call) : List Str := cs.filterMap fun | .name n => some n | .repo _ => none
def reposIn (cs : List Call) : List Path := cs.filterMap fun | .name _ => none | .repo p => some p

/-- If all calls are accepted, the model has the name and the repository that were given last, or those of the constructor; one is not changed by setting the other. -/
theorem C151_settings (cs : List Call) : ∀ b : Builder, (calls b cs).1 = .accepted →
    (calls b cs).2.name = (namesIn cs).getLast?.getD b.name ∧ (calls b cs).2.repo = (reposIn cs).getLast?.getD b.repo := by
  induction cs with
  | nil => intro b _; exact ⟨rfl, rfl⟩
  | cons c cs ih =>
    intro b h
    have hc : (call b c).1 = .accepted := by
      by_contra hn
      rw [calls, if_neg hn] at h
      exact hn h
    rw [calls, if_pos hc] at h ⊢
    obtain ⟨h1, h2⟩ := ih _ h
    rw [h1, h2]
    cases c with
    | name n =>
      refine ⟨?_, rfl⟩
      show _ = (n :: namesIn cs).getLast?.getD b.name
      rw [List.getLast?_cons]
      rfl
    | repo p =>
      refine ⟨rfl, ?_⟩
      show _ = (p :: reposIn cs).getLast?.getD b.repo
      rw [List.getLast?_cons]
      rfl

/-- An accepted name that is not empty is the name of a folder in the repository. -/
theorem C151_folder (n : Str) (h : checkName n = .accepted) (hn : n ≠ []) (repo : Path) : TaskFiles.resolve repo n = n :: repo := by
  rw [C151_accepted] at h
  have hd : (46 : UInt8) ∉ letters := by decide +kernel
  have hs : (47 : UInt8) ∉ letters := by decide +kernel
  refine TaskFiles.resolve_simple repo n ⟨hn, fun hm => hs (h _ hm), ?_, ?_⟩
  · rintro rfl
    exact hd (h 46 (by decide +kernel))
  · rintro rfl
    exact hd (h 46 (by decide +kernel))

/-- Whatever is called on a builder: if no call was refused and the name is not empty, then saving changes nothing outside the folder with this name in the repository. -/
theorem C151_inside_partial (n : Str) (repo : Path) (cs : List Call) (h0 : (construct n repo).1 = .accepted) (h1 : (calls (construct n repo).2 cs).1 = .accepted)
    (b : Builder) (hb : (calls (construct n repo).2 cs).2 = b) (hn : b.name ≠ []) (k k' : Disk Raw) (ms ms' : Nat) (config : Str) (files : List (Str × Raw))
    (hs : save k b ms ms' config files = some k') (q : Path) (hq : ¬ b.name :: b.repo <:+ q) (he : k q ≠ none) : k' q = k q := by
  have hc := last_call cs (construct n repo).2 h0 h1
  rw [hb] at hc
  unfold save at hs
  rw [C151_folder b.name hc hn] at hs
  exact C131_outside_partial k _ ms ms' config files k' (during_end _ _ _ _ _ _ _ _ hs) q hq he

/-- Two models in one repository with different names do not touch each other's files. -/
theorem C151_apart (a b : Builder) (ha : checkName a.name = .accepted) (hb : checkName b.name = .accepted) (hn : a.name ≠ []) (hm : b.name ≠ []) (hr : a.repo = b.repo)
    (hne : a.name ≠ b.name) (k k' : Disk Raw) (ms ms' : Nat) (config : Str) (files : List (Str × Raw)) (hs : save k a ms ms' config files = some k') (q : Path)
    (hq : TaskFiles.resolve b.repo b.name <:+ q) (he : k q ≠ none) : k' q = k q := by
  rw [C151_folder b.name hb hm] at hq
  refine C151_inside_partial a.name a.repo [] ha rfl a rfl hn k k' ms ms' config files hs q ?_ he
  rw [hr]
  exact TaskFiles.not_below_sibling _ _ _ (Ne.symm hne) q hq

/-- The names that a search gives to its models are accepted, and so is the name under which a model is saved if its folder is there already. -/
theorem C151_generated (hash ms : Nat) (n : Str) (hn : checkName n = .accepted) (repo : Path) :
    checkName (tempName hash ms) = .accepted ∧ tempName hash ms ≠ [] ∧
      ∃ n', stamped (n :: repo) ms = n' :: repo ∧ checkName n' = .accepted := by
  have h95 : (95 : UInt8) ∈ letters := by decide +kernel
  refine ⟨?_, ?_, n ++ 95 :: Decimal.dec ms, rfl, (check_append _ _).2 ⟨hn, (check_cons _ _).2 ⟨h95, check_dec ms⟩⟩⟩
  · unfold tempName
    rw [check_append, check_append]
    exact ⟨⟨(check_hex hash).1, by decide +kernel⟩, (check_hex ms).1⟩
  · unfold tempName
    intro e
    simp only [List.append_eq_nil_iff] at e
    exact (check_hex hash).2 e.1.1

/-- The empty name is accepted. Saving the model with overwriting removes all that is in the repository, if it is written at all: what is there afterwards belongs to the
model. -/
theorem C151_empty_violated (k k' : Disk Raw) (repo : Path) (hd : k repo = some .dir) (ms ms' : Nat) (config : Str) (files : List (Str × Raw))
    (hs : save k (construct [] repo).2 ms ms' config files = some k') :
    (construct [] repo).1 = .accepted ∧ ∀ q, repo <:+ q → q ≠ repo → q ≠ configName :: repo → ¬ (defaultLabel :: repo) <:+ q → k' q = none := by
  refine ⟨rfl, fun q hb hne hcf hdf => ?_⟩
  have hp : TaskFiles.resolve repo [] = repo := rfl
  unfold save construct at hs
  rw [hp] at hs
  unfold saveAs at hs
  obtain ⟨⟨p, k1⟩, h1, hs⟩ := Option.bind_eq_some_iff.1 hs
  obtain ⟨k2, h2, hs⟩ := Option.bind_eq_some_iff.1 hs
  unfold saveKnowledge at hs
  obtain ⟨⟨p', k3⟩, h3, rfl⟩ := Option.map_eq_some_iff.1 hs
  have hup : ¬ q <:+ repo := fun h => hne (List.IsSuffix.eq_of_length_le h (hb.length_le))
  have hup' : ¬ q <:+ defaultLabel :: repo := by
    intro h
    rcases List.suffix_cons_iff.1 h with e | e
    · exact hdf (e ▸ List.suffix_refl _)
    · exact hup e
  have e1 : p = repo ∧ k1 q = none := by
    unfold folder at h1
    rw [if_pos (by unfold isDir; rw [hd]), if_pos rfl] at h1
    obtain ⟨k0, h0, e⟩ := Option.map_eq_some_iff.1 h1
    cases e
    refine ⟨rfl, ?_⟩
    rw [create_elsewhere repo _ _ h0 q hup]
    show (if _ then _ else _) = _
    rw [if_pos hb]
  obtain ⟨rfl, e1⟩ := e1
  have e2 : k2 q = none := by
    unfold writeText at h2
    split at h2
    · cases h2
      show (if _ then _ else _) = _
      rw [if_neg hcf, e1]
    · cases h2
  have e3 : p' = defaultLabel :: p ∧ k3 q = none := by
    unfold folder at h3
    split at h3
    · rw [if_pos rfl] at h3
      obtain ⟨k0, h0, e⟩ := Option.map_eq_some_iff.1 h3
      cases e
      refine ⟨rfl, ?_⟩
      rw [create_elsewhere _ _ _ h0 q hup']
      show (if _ then _ else _) = _
      rw [if_neg hdf, e2]
    · obtain ⟨k0, h0, e⟩ := Option.map_eq_some_iff.1 h3
      cases e
      exact ⟨rfl, by rw [create_elsewhere _ _ _ h0 q hup', e2]⟩
  obtain ⟨rfl, e3⟩ := e3
  clear * - e3 hdf
  show (files.foldl (fun k f => writeTensor k (f.1 :: defaultLabel :: p) f.2) k3) q = none
  induction files generalizing k3 with
  | nil => exact e3
  | cons f files ih =>
    refine ih _ ?_
    show writeTensor k3 (f.1 :: defaultLabel :: p) f.2 q = none
    unfold writeTensor
    split
    · show (if _ then _ else _) = _
      rw [if_neg (show ¬ q = f.1 :: defaultLabel :: p from fun e => hdf (e ▸ List.suffix_cons _ _)), e3]
    · exact e3

/-- A name that is refused stays in the builder: if the exception is caught, the model is saved outside the repository. -/
theorem C151_kept_violated : (call (construct (text "m") [text "r"]).2 (.name (text "../x"))).1 = .refused ∧
    TaskFiles.resolve [text "r"] (call (construct (text "m") [text "r"]).2 (.name (text "../x"))).2.name = [text "x"] := by decide +kernel

/-- A task whose name is refused is never created, and what was in its folder is removed. -/
theorem C151_task (search : TaskFiles.Search) (repo : Path) (k k1 : Disk Raw) (c : TaskFiles.Call) (hc : checkName c.name ≠ .accepted) (ho : TaskFiles.opened k repo = some k1)
    (hp : TaskFiles.present k1 (TaskFiles.resolve (TaskFiles.tasksIn repo) c.name) = false) :
    TaskFiles.createLabelTask (named c.name search) repo k c = (false, TaskFiles.cleared k1 repo c) := by
  unfold TaskFiles.createLabelTask
  simp only [ho, hp, Bool.false_eq_true, if_false]
  cases TaskFiles.readDatasets (TaskFiles.cleared k1 repo c) repo c with
  | none => rfl
  | some d => simp only [named, if_neg hc, List.foldl_nil]

/-- The words of the language are accepted. -/
theorem C151_word (w : List Char) (h : LexerSpec.IsIdentifier w) : checkName (w.map fun c => UInt8.ofNat c.toNat) = .accepted ∧ w ≠ [] := by
  have key : ∀ c : Char, LexerSpec.wordChar c = true → UInt8.ofNat c.toNat ∈ letters := by
    intro c hc
    have hs : c.toNat < 128 := by
      simp only [LexerSpec.wordChar, Char.isAlphanum, Char.isAlpha, Char.isUpper, Char.isLower, Char.isDigit, Bool.or_eq_true, Bool.and_eq_true, decide_eq_true_eq, UInt32.le_iff_toNat_le, ge_iff_le] at hc
      rcases hc with ((⟨a, b⟩ | ⟨a, b⟩) | ⟨a, b⟩) | e
      · exact Nat.lt_of_le_of_lt b (by decide)
      · exact Nat.lt_of_le_of_lt b (by decide)
      · exact Nat.lt_of_le_of_lt b (by decide)
      · subst e; decide
    have all : ∀ n, n < 128 → LexerSpec.wordChar (Char.ofNat n) = true → UInt8.ofNat n ∈ letters := by decide +kernel
    have := all c.toNat hs
    rw [Char.ofNat_toNat] at this
    exact this hc
  obtain ⟨c, t, rfl, hc, ht⟩ := h
  refine ⟨(C151_accepted _).2 ?_, by simp⟩
  intro x hx
  obtain ⟨d, hd, rfl⟩ := List.mem_map.1 hx
  rcases List.mem_cons.1 hd with rfl | hd
  · refine key d ?_
    simp [LexerSpec.wordChar, Char.isAlphanum, hc]
  · exact key d (ht d hd)

/-- A statement can give a task a name that the builder refuses. -/
theorem C151_task_violated :
    Parser.parseScript (fun _ => (none : Option Unit)) "create task label 'my task' using d".toList =
      .program [.createTask "label".toList "'my task'".toList "accuracy".toList "d".toList "".toList] ∧ checkName (text "'my task'") = .refused := by
  decide +kernel

/-! ### Examples -/

example : checkName (text "Model_1") = .accepted ∧ checkName (text "my-model") = .refused ∧ checkName [195, 169] = .undefined ∧ checkName [255] = .refused := by decide +kernel

example : (calls (construct (text "m") [text "r"]).2 [.name (text "n"), .repo [text "s"], .name (text "o_2")]) = (.accepted, ⟨text "o_2", [text "s"]⟩) := by decide +kernel

/-- A disk with a repository, a file and nothing else. -/
def sample : Disk Raw := fun q => if q = [] ∨ q = [text "r"] then some .dir else if q = [text "f", text "r"] then some (.file (.text (text "data"))) else none

example : (save sample ⟨text "m", [text "r"]⟩ 1 2 (text "c") [(text "1", [7])]).isSome = true ∧
    ((save sample ⟨text "m", [text "r"]⟩ 1 2 (text "c") [(text "1", [7])]).getD sample) [text "f", text "r"] = some (.file (.text (text "data"))) ∧
    (save sample ⟨[], [text "r"]⟩ 1 2 (text "c") [(text "1", [7])]).isSome = true ∧
    ((save sample ⟨[], [text "r"]⟩ 1 2 (text "c") [(text "1", [7])]).getD sample) [text "f", text "r"] = none := by decide +kernel

example : (TaskFiles.opened TaskFiles.sample []).isSome = true ∧ checkName (text "a b") ≠ .accepted ∧
    TaskFiles.present ((TaskFiles.opened TaskFiles.sample []).getD TaskFiles.sample) (TaskFiles.resolve (TaskFiles.tasksIn []) (text "a b")) = false ∧
    (TaskFiles.createLabelTask (named (text "a b") TaskFiles.sampleSearch) [] TaskFiles.sample (TaskFiles.sampleCall (text "a b") (text "d"))).1 = false ∧
    (TaskFiles.createLabelTask (named (text "u") TaskFiles.sampleSearch) [] TaskFiles.sample (TaskFiles.sampleCall (text "u") (text "d"))).1 = true := by decide +kernel

example : LexerSpec.IsIdentifier "my_task2".toList := ⟨'m', "y_task2".toList, by decide +kernel, by decide +kernel, by decide +kernel⟩

example : tempName 255 4096 = text "ff_1000" := by decide +kernel

end Verif.ModelName
