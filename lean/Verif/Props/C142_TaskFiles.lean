import Verif.Model.TaskFiles
import Verif.Model.Parser
import Verif.Props.C131_Interrupted

/-!
# C142: creating a task

Creating a task leaves everything outside its folder alone, also when it is interrupted, gives a complete folder, completes what an interrupted call left, and
keeps a complete task as it is.

Recorded disagreements:
* names are not checked: `create task label . using d` removes all tasks (`C142_name_violated`);
* a task that is created again from another dataset is reported as created and still is the old one (`C142_dataset_violated`);
* a call that is stopped after the network was saved leaves a task that cannot be executed and that is never completed (`C142_stopped_violated`).
-/
namespace Verif.TaskFiles
open Verif.TextCodec Verif.ModelFiles Verif.Interrupted Verif.Dsl Verif.Decimal

/-- A name that is one component of a path. -/
def SimpleName (n : Str) : Prop := n ≠ [] ∧ 47 ∉ n ∧ n ≠ text "." ∧ n ≠ text ".."

instance (n : Str) : Decidable (SimpleName n) := by unfold SimpleName; infer_instance

theorem components_simple : ∀ n : Str, 47 ∉ n → components n = [n] := by
  intro n
  induction n with
  | nil => intro _; rfl
  | cons c s ih =>
    intro h
    rw [components, if_neg (fun e => h (by simp [e])), ih (fun e => h (List.mem_cons_of_mem _ e))]

theorem resolve_simple (b : Path) (n : Str) (h : SimpleName n) : resolve b n = n :: b := by
  unfold resolve
  rw [components_simple n h.2.1]
  simp only [List.foldl_cons, List.foldl_nil]
  unfold enter
  rw [if_neg (by rintro (e | e); exacts [h.1 e, h.2.2.1 e]), if_neg h.2.2.2]

/-- The folder of a task. -/
def taskPath (repo : Path) (n : Str) : Path := n :: tasksIn repo

/-- The log. -/
def logPath (repo : Path) : Path := logName :: logsIn repo

variable {S : Path → Prop}

theorem keeps_append (k : Disk Raw) (p : Path) (s : Str) (h : ¬ S p) : Keeps S k (appendText k p s) := by
  unfold appendText
  split
  · exact keeps_put _ _ _ (Or.inr h)
  · exact Keeps.refl _

theorem keeps_opened (k : Disk Raw) (repo : Path) (hl : ¬ S (logPath repo)) (k1 : Disk Raw) (h : opened k repo = some k1) : Keeps S k k1 := by
  obtain ⟨k0, h0, rfl⟩ := Option.map_eq_some_iff.1 h
  exact (keeps_create _ _ _ h0).trans (keeps_append _ _ _ hl)

theorem keeps_cleared (k : Disk Raw) (repo : Path) (c : Call) (hl : ¬ S (logPath repo)) (hS : ∀ q, S q → ¬ resolve (tasksIn repo) c.name <:+ q) :
    Keeps S k (cleared k repo c) := by
  unfold cleared
  dsimp only
  split
  · exact (keeps_removeAll k _ hS).trans (keeps_append _ _ _ hl)
  · exact keeps_append _ _ _ hl

theorem keeps_savingKnowledge (k : Disk Raw) (p : Path) (label : Str) (ms : Nat) (files : List (Str × Raw)) (hS : ∀ q, S q → ¬ p <:+ q) (k' : Disk Raw)
    (h : SavingKnowledge k p label true ms files k') : Keeps S k k' := by
  have hS' : ∀ q, S q → ¬ (label :: p) <:+ q := fun q hq hs => hS q hq ((List.suffix_cons label p).trans hs)
  rcases h with h | ⟨q, k1, h1, h2⟩
  · exact keeps_preparing k _ true ms (fun _ => hS') k' h
  · have hq : q = label :: p := by
      rcases folder_path _ _ _ _ _ _ h1 with ⟨e, _⟩ | ⟨_, e, _⟩
      · exact e
      · cases e
    subst hq
    exact (keeps_folder k _ true ms (fun _ => hS') _ k1 h1).trans
      (keeps_writingAll _ files k1 (fun n hn => hS' _ hn (List.suffix_cons n _)) k' h2)

theorem keeps_savingAs (k : Disk Raw) (p : Path) (ms ms' : Nat) (config : Str) (files : List (Str × Raw)) (hS : ∀ q, S q → ¬ p <:+ q) (k' : Disk Raw)
    (h : SavingAs k p true ms ms' config files k') : Keeps S k k' := by
  rcases h with h | ⟨q, k1, h1, h2⟩
  · exact keeps_preparing k _ true ms (fun _ => hS) k' h
  · have hq : q = p := by
      rcases folder_path _ _ _ _ _ _ h1 with ⟨e, _⟩ | ⟨_, e, _⟩
      · exact e
      · cases e
    subst hq
    refine (keeps_folder k _ true ms (fun _ => hS) _ k1 h1).trans ?_
    have hc : ¬ S (configName :: q) := fun hn => hS _ hn (List.suffix_cons _ _)
    rcases h2 with h2 | ⟨k2, h2, h3⟩
    · exact keeps_writingText _ _ _ (Or.inr hc) _ h2
    · refine Keeps.trans ?_ (keeps_savingKnowledge k2 q _ ms' files hS k' h3)
      unfold writeText at h2
      split at h2
      · cases h2
        exact keeps_put _ _ _ (Or.inr hc)
      · cases h2

theorem keeps_check (p : Path) (k : Disk Raw) (x : Check) (hS : ∀ q, S q → ¬ p <:+ q) : Keeps S k (check p k x) := by
  cases x with
  | save n files =>
    show Keeps S k ((saveKnowledge k p (checkLabel n) true n files).getD k)
    cases h : saveKnowledge k p (checkLabel n) true n files with
    | none => exact Keeps.refl _
    | some k' =>
      rw [Option.getD_some]
      unfold saveKnowledge at h
      obtain ⟨⟨q, k1⟩, h1, rfl⟩ := Option.map_eq_some_iff.1 h
      exact keeps_savingKnowledge k p (checkLabel n) n files hS _ (Or.inr ⟨q, k1, h1, writingAll_end q files k1⟩)
  | remove n =>
    exact keeps_removeAll k _ fun q hq hs => hS q hq ((List.suffix_cons (checkLabel n) p).trans hs)

theorem keeps_checks (p : Path) (l : List Check) (hS : ∀ q, S q → ¬ p <:+ q) : ∀ k, Keeps S k (l.foldl (check p) k) := by
  induction l with
  | nil => intro k; exact Keeps.refl _
  | cons x l ih => intro k; exact (keeps_check p k x hS).trans (ih _)

theorem keeps_checking (p : Path) (k : Disk Raw) (x : Check) (hS : ∀ q, S q → ¬ p <:+ q) (k' : Disk Raw) (h : Checking p k x k') : Keeps S k k' := by
  cases x with
  | save n files => exact keeps_savingKnowledge k p _ n files hS k' h
  | remove n => exact keeps_removing k _ (fun q hq hs => hS q hq ((List.suffix_cons (checkLabel n) p).trans hs)) k' h

theorem keeps_writeData (k : Disk Raw) (p : Path) (s : Str) (h : ¬ S p) : Keeps S k (writeData k p s) := by
  unfold writeData
  split
  · exact keeps_put _ _ _ (Or.inr h)
  · exact Keeps.refl _

/-- The result of a call. -/
theorem keeps_create (search : Search) (repo : Path) (k : Disk Raw) (c : Call) (hl : ¬ S (logPath repo))
    (hS : ∀ q, S q → ¬ resolve (tasksIn repo) c.name <:+ q) : Keeps S k (createLabelTask search repo k c).2 := by
  unfold createLabelTask
  dsimp only
  cases h1 : opened k repo with
  | none => exact Keeps.refl _
  | some k1 =>
    refine (keeps_opened k repo hl k1 h1).trans ?_
    dsimp only
    split
    · exact Keeps.refl _
    · refine (keeps_cleared k1 repo c hl hS).trans ?_
      cases h2 : readDatasets (cleared k1 repo c) repo c with
      | none => exact Keeps.refl _
      | some d =>
        dsimp only
        refine (keeps_checks _ (search d.1 d.2 c.goal).1 hS _).trans ?_
        cases h3 : (search d.1 d.2 c.goal).2 with
        | none => exact Keeps.refl _
        | some r =>
          dsimp only
          cases h4 : saveAs ((search d.1 d.2 c.goal).1.foldl (check (resolve (tasksIn repo) c.name)) (cleared k1 repo c)) (resolve (tasksIn repo) c.name) true
              c.ms c.ms' r.config r.files with
          | none => exact Keeps.refl _
          | some k2 =>
            exact (keeps_savingAs _ _ _ _ _ _ hS k2 (during_end _ _ _ _ _ _ _ _ h4)).trans
              (keeps_writeData _ _ _ fun hn => hS _ hn (List.suffix_cons _ _))

/-- C142. Everything that was on the disk outside the folder of the task, except the log, is unchanged after the call and at every moment of it; the other tasks and
all datasets in particular. -/
theorem C142_others (search : Search) (repo : Path) (k : Disk Raw) (c : Call) (hn : SimpleName c.name) (k' : Disk Raw)
    (h : Moment search repo k c k' ∨ k' = (createLabelTask search repo k c).2) (q : Path) (hq : ¬ taskPath repo c.name <:+ q) (hlog : q ≠ logPath repo)
    (hk : k q ≠ none) : k' q = k q := by
  have hp := resolve_simple (tasksIn repo) c.name hn
  let S : Path → Prop := fun q => ¬ taskPath repo c.name <:+ q ∧ q ≠ logPath repo
  have hl : ¬ S (logPath repo) := fun h => h.2 rfl
  have hS : ∀ q, S q → ¬ resolve (tasksIn repo) c.name <:+ q := by rw [hp]; exact fun q h => h.1
  suffices Keeps S k k' from this q ⟨hq, hlog⟩ hk
  rcases h with h | rfl
  · cases h with
    | logging _ h => exact keeps_creating _ _ _ h
    | opened _ h => exact keeps_opened _ _ hl _ h
    | removing k1 _ h1 _ h => exact (keeps_opened _ _ hl _ h1).trans (keeps_removing _ _ hS _ h)
    | cleared k1 h1 _ => exact (keeps_opened _ _ hl _ h1).trans (keeps_cleared _ _ _ hl hS)
    | training k1 _ d done x rest h1 _ _ _ h =>
      exact (((keeps_opened _ _ hl _ h1).trans (keeps_cleared _ _ c hl hS)).trans (keeps_checks _ done hS _)).trans (keeps_checking _ _ _ hS _ h)
    | saving k1 _ d r h1 _ _ _ h =>
      exact (((keeps_opened _ _ hl _ h1).trans (keeps_cleared _ _ c hl hS)).trans (keeps_checks _ _ hS _)).trans (keeps_savingAs _ _ _ _ _ _ hS _ h)
    | writing k1 k2 _ d r h1 _ _ _ h2 h =>
      exact ((((keeps_opened _ _ hl _ h1).trans (keeps_cleared _ _ c hl hS)).trans (keeps_checks _ _ hS _)).trans
        (keeps_savingAs _ _ _ _ _ _ hS k2 (during_end _ _ _ _ _ _ _ _ h2))).trans
        (keeps_writingText _ _ _ (Or.inr fun hn => hS _ hn (List.suffix_cons _ _)) _ h)
  · exact TaskFiles.keeps_create search repo k c hl hS

/-! ### What a task folder contains -/

/-- The folder of a task has the network and the description of the columns. -/
structure Stored (k : Disk Raw) (p : Path) (r : Trained) : Prop where
  folder : k p = some .dir
  config : k (configName :: p) = some (.file (.text r.config))
  weights : ∀ f ∈ r.files, (∀ g ∈ r.files, g.1 = f.1 → g.2 = f.2) → k (f.1 :: defaultLabel :: p) = some (.file (.tensor f.2))
  columns : k (dataName :: p) = some (.file (.text r.header))

theorem not_below_sibling (t : Path) (a b : Str) (h : a ≠ b) (q : Path) (hq : a :: t <:+ q) : ¬ b :: t <:+ q := by
  intro h2
  have h3 := List.suffix_of_suffix_length_le hq h2 (by simp)
  have := h3.eq_of_length (by simp)
  simp only [List.cons.injEq, and_true] at this
  exact h this

theorem not_below_shorter (t : Path) (a : Str) : ¬ a :: t <:+ t := by
  intro h
  have := h.length_le
  simp at this

/-- Nothing below the tasks is the log. -/
theorem task_not_log (repo : Path) (q : Path) (h : tasksIn repo <:+ q) : q ≠ logPath repo := by
  rintro rfl
  have h2 : logsIn repo <:+ logPath repo := List.suffix_cons _ _
  exact not_below_sibling repo _ _ (by decide +kernel) _ h2 h

/-- A task that is there stays as it is, whatever is created afterwards, with its own name or another one: a later call with the same name is skipped. -/
theorem C142_stays (calls : List (Search × Call)) (repo : Path) (hs : ∀ c ∈ calls, SimpleName c.2.name) (n : Str) (r : Trained) :
    ∀ k, Stored k (taskPath repo n) r → Stored (calls.foldl (fun k c => (createTask c.1 repo k c.2).2) k) (taskPath repo n) r := by
  induction calls with
  | nil => intro k h; exact h
  | cons c calls ih =>
    intro k h
    rw [List.foldl_cons]
    refine ih (fun x hx => hs x (List.mem_cons_of_mem _ hx)) _ ?_
    have hname := hs c (by simp)
    have key : Keeps (fun q => taskPath repo n <:+ q) k (createTask c.1 repo k c.2).2 := by
      unfold createTask
      split
      · exact Keeps.refl _
      · have hl : ¬ taskPath repo n <:+ logPath repo := fun h => task_not_log repo _ ((List.suffix_cons _ _).trans h) rfl
        by_cases hcn : c.2.name = n
        · unfold createLabelTask
          dsimp only
          cases h1 : opened k repo with
          | none => exact Keeps.refl _
          | some k1 =>
            have hk1 := keeps_opened (S := fun q => taskPath repo n <:+ q) k repo hl k1 h1
            dsimp only
            rw [resolve_simple _ _ hname, hcn, if_pos]
            · exact hk1
            · have e1 := hk1 (taskPath repo n) (List.suffix_refl _) (by rw [h.folder]; simp)
              have e2 := hk1 (configName :: taskPath repo n) (List.suffix_cons _ _) (by rw [h.config]; simp)
              unfold present
              show ((k1 (taskPath repo n)).isSome && (k1 (configName :: taskPath repo n)).isSome) = true
              rw [e1, e2, h.folder, h.config]
              rfl
        · refine TaskFiles.keeps_create c.1 repo k c.2 hl ?_
          rw [resolve_simple _ _ hname]
          intro q hq
          exact not_below_sibling _ _ _ (fun e => hcn e.symm) q hq
    have put : ∀ q x, taskPath repo n <:+ q → k q = some x → (createTask c.1 repo k c.2).2 q = some x := by
      intro q x hq hx
      rw [key q hq (by rw [hx]; simp), hx]
    refine ⟨put _ _ (List.suffix_refl _) h.folder, put _ _ (List.suffix_cons _ _) h.config, ?_, put _ _ (List.suffix_cons _ _) h.columns⟩
    intro f hf hu
    exact put _ _ ((List.suffix_cons _ _).trans (List.suffix_cons _ _)) (h.weights f hf hu)

/-- The conditions under which a call can succeed: the folders are there, no file is in the place of the log folder, the datasets can be read, the task is not
complete. -/
structure Ready (k : Disk Raw) (repo : Path) (c : Call) (d : Str × Option Str) : Prop where
  tree : Tree k
  tasks : k (tasksIn repo) = some .dir
  logs : ∀ x, k (logsIn repo) ≠ some (.file x)
  name : SimpleName c.name
  dataset : SimpleName c.dataset
  test : c.test = [] ∨ SimpleName c.test
  read : readDatasets k repo c = some d
  missing : k (configName :: taskPath repo c.name) = none

theorem append_tree (k : Disk Raw) (hk : Tree k) (p : Path) (s : Str) : Tree (appendText k p s) := by
  unfold appendText
  split
  · rename_i h
    cases p with
    | nil => cases h
    | cons n r =>
      have h' : (isDir k r && !isDir k (n :: r)) = true := h
      rw [Bool.and_eq_true] at h'
      refine put_file_tree k hk n r ((isDir_iff _ _).1 h'.1) ?_ _
      intro e
      rw [(isDir_iff _ _).2 e] at h'
      exact absurd h'.2 (by simp)
  · exact hk

theorem append_other (k : Disk Raw) (p : Path) (s : Str) (q : Path) (h : q ≠ p) : appendText k p s q = k q := by
  unfold appendText
  split
  · unfold put; rw [if_neg h]
  · rfl

theorem clear_dir (k : Disk Raw) (hk : Tree k) (t : Path) (h : k t = some .dir) : Clear k t := by
  intro q hq x hx
  have : ∀ (r : Path), k r = some .dir → ∀ q, q <:+ r → k q = some .dir := by
    intro r
    induction r with
    | nil => intro h q hq; rw [List.suffix_nil] at hq; rw [hq]; exact h
    | cons n r ih =>
      intro h q hq
      rcases List.suffix_cons_iff.1 hq with rfl | hq
      · exact h
      · exact ih (hk.parent n r (by rw [h]; simp)) q hq
  rw [this t h q hq] at hx
  cases hx

theorem clear_cons (k : Disk Raw) (hk : Tree k) (n : Str) (t : Path) (h : k t = some .dir) (hn : ∀ x, k (n :: t) ≠ some (.file x)) : Clear k (n :: t) := by
  intro q hq x hx
  rcases List.suffix_cons_iff.1 hq with rfl | hq
  · exact hn x hx
  · exact clear_dir k hk t h q hq x hx

theorem opened_ok (k : Disk Raw) (repo : Path) (hk : Tree k) (ht : k (tasksIn repo) = some .dir) (hl : ∀ x, k (logsIn repo) ≠ some (.file x)) :
    ∃ k1, opened k repo = some k1 ∧ Tree k1 ∧ (∀ q, k q ≠ none → q ≠ logPath repo → k1 q = k q) ∧ (∀ q, tasksIn repo <:+ q → k1 q = k q) ∧
      ∀ q, datasetsIn repo <:+ q → k1 q = k q := by
  have hrepo : k repo = some .dir := hk.parent _ _ (show k (tasksIn repo) ≠ none by rw [ht]; simp)
  obtain ⟨k0, e, t0, _, f0, g0⟩ := createDirectories_ok (logsIn repo) k hk (clear_cons k hk _ _ hrepo hl)
  have hside : ∀ n : Str, n ≠ text "logs" → ∀ q, n :: repo <:+ q → appendText k0 (logPath repo) [] q = k q := by
    intro n hn q hq
    have h1 : ¬ logsIn repo <:+ q := not_below_sibling repo n _ hn q hq
    rw [append_other _ _ _ _ (by rintro rfl; exact h1 (List.suffix_cons _ _)), f0 q]
    intro h2
    have := List.suffix_of_suffix_length_le (hq.trans h2) (List.suffix_refl (logsIn repo)) (by simp [logsIn])
    have := this.eq_of_length (by simp [logsIn])
    simp only [logsIn, List.cons.injEq, and_true] at this
    exact hn this
  refine ⟨_, by unfold opened; rw [e]; rfl, append_tree _ t0 _ _, ?_, hside _ (by decide +kernel), hside _ (by decide +kernel)⟩
  intro q hq hlog
  rw [append_other _ _ _ _ hlog, g0 q hq]

/-- Neither removing the task nor the log touches a dataset. -/
theorem cleared_data (k : Disk Raw) (repo : Path) (c : Call) (hn : SimpleName c.name) (q : Path) (hq : datasetsIn repo <:+ q) : cleared k repo c q = k q := by
  have h1 : ¬ logsIn repo <:+ q := not_below_sibling repo _ _ (by decide +kernel) q hq
  have h2 : ¬ tasksIn repo <:+ q := not_below_sibling repo _ _ (by decide +kernel) q hq
  unfold cleared
  rw [append_other _ _ _ _ (by rintro rfl; exact h1 (List.suffix_cons _ _)), resolve_simple _ _ hn]
  split
  · unfold removeAll
    rw [if_neg fun h => h2 ((List.suffix_cons _ _).trans h)]
  · rfl

theorem readDatasets_same (k k' : Disk Raw) (repo : Path) (c : Call) (hd : SimpleName c.dataset) (ht : c.test = [] ∨ SimpleName c.test)
    (h : ∀ q, datasetsIn repo <:+ q → k' q = k q) : readDatasets k' repo c = readDatasets k repo c := by
  have key : ∀ n, SimpleName n → readData k' (dataName :: resolve (datasetsIn repo) n) = readData k (dataName :: resolve (datasetsIn repo) n) := by
    intro n hn
    unfold readData
    rw [resolve_simple _ _ hn, h _ ((List.suffix_cons _ _).trans (List.suffix_cons _ _))]
  unfold readDatasets
  rw [key _ hd]
  rcases ht with ht | ht
  · rw [ht]; rfl
  · rw [key _ ht]

theorem create_tree (p : Path) (k k' : Disk Raw) (hk : Tree k) (h : createDirectories p k = some k') : Tree k' := by
  induction p generalizing k' with
  | nil => cases h; exact hk
  | cons n r ih =>
    rw [createDirectories] at h
    cases h1 : createDirectories r k with
    | none => rw [h1] at h; cases h
    | some k1 =>
      rw [h1] at h
      simp only [Option.bind_some] at h
      have t1 := ih k1 h1
      have hr : k1 r = some .dir := by
        cases r with
        | nil => exact t1.root
        | cons m s =>
          rw [createDirectories] at h1
          cases h2 : createDirectories s k with
          | none => rw [h2] at h1; cases h1
          | some k2 =>
            rw [h2] at h1
            simp only [Option.bind_some] at h1
            cases hv : k2 (m :: s) with
            | none => rw [hv] at h1; cases h1; unfold put; rw [if_pos rfl]
            | some e =>
              rw [hv] at h1
              cases e with
              | dir => cases h1; exact hv
              | file c => cases h1
      cases hv : k1 (n :: r) with
      | none =>
        rw [hv] at h
        cases h
        refine ⟨?_, ?_⟩
        · unfold put; rw [if_neg (by simp)]; exact t1.root
        · intro m s hms
          unfold put at hms ⊢
          split
          · rfl
          · by_cases hm : m :: s = n :: r
            · cases hm; exact hr
            · rw [if_neg hm] at hms
              exact t1.parent m s hms
      | some e =>
        rw [hv] at h
        cases e with
        | dir => cases h; exact t1
        | file c => cases h

theorem writeTensor_tree (k : Disk Raw) (hk : Tree k) (p : Path) (b : Raw) : Tree (writeTensor k p b) := by
  unfold writeTensor
  split
  · rename_i h
    cases p with
    | nil => cases h
    | cons n r =>
      have h' : (isDir k r && !isDir k (n :: r)) = true := h
      rw [Bool.and_eq_true] at h'
      refine put_file_tree k hk n r ((isDir_iff _ _).1 h'.1) ?_ _
      intro e
      rw [(isDir_iff _ _).2 e] at h'
      exact absurd h'.2 (by simp)
  · exact hk

theorem folder_tree (k : Disk Raw) (hk : Tree k) (p : Path) (hp : p ≠ []) (ms : Nat) (q : Path) (k1 : Disk Raw) (h1 : folder k p true ms = some (q, k1)) :
    Tree k1 := by
  unfold folder at h1
  split at h1
  · rw [if_pos rfl] at h1
    obtain ⟨k2, h2, e⟩ := Option.map_eq_some_iff.1 h1
    cases e
    exact create_tree _ _ _ (removeAll_tree k hk _ hp) h2
  · obtain ⟨k2, h2, e⟩ := Option.map_eq_some_iff.1 h1
    cases e
    exact create_tree _ _ _ hk h2

theorem saveKnowledge_tree (k : Disk Raw) (hk : Tree k) (p : Path) (label : Str) (ms : Nat) (files : List (Str × Raw)) (k' : Disk Raw)
    (h : saveKnowledge k p label true ms files = some k') : Tree k' := by
  unfold saveKnowledge at h
  obtain ⟨⟨q, k1⟩, h1, rfl⟩ := Option.map_eq_some_iff.1 h
  have t1 : Tree k1 := folder_tree k hk _ (by simp) _ _ _ h1
  dsimp only
  clear h h1
  revert k1
  induction files with
  | nil => intro k1 t1; exact t1
  | cons f fs ih => intro k1 t1; exact ih _ (writeTensor_tree k1 t1 _ _)

theorem check_tree (p : Path) (k : Disk Raw) (hk : Tree k) (x : Check) : Tree (check p k x) := by
  cases x with
  | remove n => exact removeAll_tree k hk _ (by simp)
  | save n files =>
    show Tree ((saveKnowledge k p (checkLabel n) true n files).getD k)
    cases h : saveKnowledge k p (checkLabel n) true n files with
    | none => exact hk
    | some k' =>
      rw [Option.getD_some]
      exact saveKnowledge_tree _ hk _ _ _ _ _ h

theorem writeText_tree (k : Disk Raw) (hk : Tree k) (p : Path) (s : Str) (k' : Disk Raw) (h : writeText k p s = some k') : Tree k' := by
  unfold writeText at h
  split at h
  · rename_i hw
    cases h
    cases p with
    | nil => cases hw
    | cons n r =>
      have h' : (isDir k r && !isDir k (n :: r)) = true := hw
      rw [Bool.and_eq_true] at h'
      refine put_file_tree k hk n r ((isDir_iff _ _).1 h'.1) ?_ _
      intro e
      rw [(isDir_iff _ _).2 e] at h'
      exact absurd h'.2 (by simp)
  · cases h

theorem saveAs_tree (k : Disk Raw) (hk : Tree k) (p : Path) (hp : p ≠ []) (ms ms' : Nat) (config : Str) (files : List (Str × Raw)) (k' : Disk Raw)
    (h : saveAs k p true ms ms' config files = some k') : Tree k' := by
  unfold saveAs at h
  obtain ⟨⟨q, k1⟩, h1, h⟩ := Option.bind_eq_some_iff.1 h
  obtain ⟨k2, h2, h⟩ := Option.bind_eq_some_iff.1 h
  exact saveKnowledge_tree _ (writeText_tree _ (folder_tree _ hk _ hp _ _ _ h1) _ _ _ h2) _ _ _ _ _ h

theorem checks_tree (p : Path) (l : List Check) : ∀ k : Disk Raw, ModelFiles.Tree k → ModelFiles.Tree (l.foldl (check p) k) := by
  induction l with
  | nil => intro k h; exact h
  | cons x l ih => intro k h; exact ih _ (check_tree p k h x)

/-- `create_directories` makes no file. -/
theorem create_noFile (p : Path) (k k' : Disk Raw) (h : createDirectories p k = some k') (q : Path) (x : Content Raw)
    (hq : k' q = some (.file x)) : k q = some (.file x) := by
  induction p generalizing k' with
  | nil => cases h; exact hq
  | cons n r ih =>
    rw [createDirectories] at h
    cases h1 : createDirectories r k with
    | none => rw [h1] at h; cases h
    | some k1 =>
      rw [h1] at h
      simp only [Option.bind_some] at h
      cases hv : k1 (n :: r) with
      | none =>
        rw [hv] at h
        cases h
        unfold put at hq
        split at hq
        · cases hq
        · exact ih k1 h1 hq
      | some e =>
        rw [hv] at h
        cases e with
        | dir => cases h; exact ih _ h1 hq
        | file c => cases h

theorem removeAll_noFile (k : Disk Raw) (p q : Path) (x : Content Raw) (h : removeAll k p q = some (.file x)) : k q = some (.file x) := by
  unfold removeAll at h
  split at h
  · cases h
  · exact h

theorem check_noFile (p : Path) (k : Disk Raw) (hk : ∀ x, k p ≠ some (.file x)) (y : Check) (x : Content Raw) : check p k y p ≠ some (.file x) := by
  cases y with
  | remove n => exact fun h => hk x (removeAll_noFile _ _ _ _ h)
  | save n files =>
    show (saveKnowledge k p (checkLabel n) true n files).getD k p ≠ _
    cases h : saveKnowledge k p (checkLabel n) true n files with
    | none => exact hk x
    | some k' =>
      rw [Option.getD_some]
      unfold saveKnowledge at h
      obtain ⟨⟨q, k1⟩, h1, rfl⟩ := Option.map_eq_some_iff.1 h
      have t1 : q = checkLabel n :: p ∧ ∀ x, k1 p ≠ some (.file x) := by
        unfold folder at h1
        split at h1
        · rw [if_pos rfl] at h1
          obtain ⟨k2, h2, e⟩ := Option.map_eq_some_iff.1 h1
          cases e
          exact ⟨rfl, fun x h => hk x (removeAll_noFile _ _ _ _ (create_noFile _ _ _ h2 _ _ h))⟩
        · obtain ⟨k2, h2, e⟩ := Option.map_eq_some_iff.1 h1
          cases e
          exact ⟨rfl, fun x h => hk x (create_noFile _ _ _ h2 _ _ h)⟩
      obtain ⟨rfl, t1⟩ := t1
      dsimp only
      clear h h1
      revert k1
      induction files with
      | nil => intro k1 t1; exact t1 x
      | cons f fs ih =>
        intro k1 t1
        refine ih _ ?_
        intro x
        show writeTensor k1 (f.1 :: checkLabel n :: p) f.2 p ≠ _
        unfold writeTensor
        split
        · unfold put
          rw [if_neg]
          · exact t1 x
          · intro e
            have := congrArg List.length e
            simp at this
            omega
        · exact t1 x

theorem checks_noFile (p : Path) (l : List Check) : ∀ k : Disk Raw, (∀ x, k p ≠ some (.file x)) → ∀ x, l.foldl (check p) k p ≠ some (.file x) := by
  induction l with
  | nil => intro k h; exact h
  | cons y l ih => intro k h; exact ih _ (check_noFile p k h y)

/-- Up to the moment when the network is saved. -/
theorem reaches (search : Search) (repo : Path) (k : Disk Raw) (c : Call) (d : Str × Option Str) (hk : Ready k repo c d) (r : Trained) :
    ∃ k1 k3, opened k repo = some k1 ∧ present k1 (resolve (tasksIn repo) c.name) = false ∧ readDatasets (cleared k1 repo c) repo c = some d ∧
      saveAs ((search d.1 d.2 c.goal).1.foldl (check (resolve (tasksIn repo) c.name)) (cleared k1 repo c)) (resolve (tasksIn repo) c.name) true c.ms c.ms'
        r.config r.files = some k3 ∧
      ModelFiles.Tree k3 ∧ k3 (configName :: taskPath repo c.name) = some (.file (.text r.config)) ∧ k3 (dataName :: taskPath repo c.name) = none ∧
      (∀ f ∈ r.files, (∀ g ∈ r.files, g.1 = f.1 → g.2 = f.2) → k3 (f.1 :: defaultLabel :: taskPath repo c.name) = some (.file (.tensor f.2))) ∧
      ∀ q, taskPath repo c.name <:+ q → q ≠ taskPath repo c.name → q ≠ configName :: taskPath repo c.name → q ≠ defaultLabel :: taskPath repo c.name →
        (∀ f ∈ r.files, q ≠ f.1 :: defaultLabel :: taskPath repo c.name) → k3 q = none := by
  obtain ⟨k1, o1, t1, e1, b1, a1⟩ := opened_ok k repo hk.tree hk.tasks hk.logs
  have hp : resolve (tasksIn repo) c.name = taskPath repo c.name := resolve_simple _ _ hk.name
  have hin : tasksIn repo <:+ taskPath repo c.name := List.suffix_cons _ _
  have hne : taskPath repo c.name ≠ [] := by simp [taskPath]
  have hpres : present k1 (taskPath repo c.name) = false := by
    unfold present
    rw [b1 (configName :: taskPath repo c.name) (hin.trans (List.suffix_cons _ _)), hk.missing]
    simp
  have hread : readDatasets (cleared k1 repo c) repo c = some d := by
    rw [readDatasets_same k (cleared k1 repo c) repo c hk.dataset hk.test, hk.read]
    intro q hq
    rw [cleared_data _ _ _ hk.name q hq, a1 q hq]
  have hc0 : ∀ q, q ≠ logPath repo → cleared k1 repo c q = (if (k1 (taskPath repo c.name)).isSome then removeAll k1 (taskPath repo c.name) else k1) q := by
    intro q hq
    unfold cleared
    rw [append_other _ _ _ _ (show q ≠ logName :: logsIn repo from hq), hp]
  have tc : ModelFiles.Tree (cleared k1 repo c) := by
    unfold cleared
    refine append_tree _ ?_ _ _
    rw [hp]
    split
    · exact removeAll_tree _ t1 _ hne
    · exact t1
  have hgone : cleared k1 repo c (taskPath repo c.name) = none := by
    rw [hc0 _ (task_not_log repo _ hin)]
    split
    · unfold removeAll; rw [if_pos (List.suffix_refl _)]
    · rename_i h; simpa using h
  have htask : cleared k1 repo c (tasksIn repo) = some .dir := by
    have h1 : k1 (tasksIn repo) = some .dir := by rw [b1 _ (List.suffix_refl _), hk.tasks]
    rw [hc0 _ (task_not_log repo _ (List.suffix_refl _))]
    split
    · unfold removeAll; rw [if_neg (show ¬ taskPath repo c.name <:+ tasksIn repo from not_below_shorter _ _)]; exact h1
    · exact h1
  set k2 := (search d.1 d.2 c.goal).1.foldl (check (taskPath repo c.name)) (cleared k1 repo c) with hk2
  have t2 : ModelFiles.Tree k2 := checks_tree _ _ _ tc
  have hf2 : ∀ x, k2 (taskPath repo c.name) ≠ some (.file x) := checks_noFile _ _ _ (by rw [hgone]; simp)
  have ht2 : k2 (tasksIn repo) = some .dir := by
    have := keeps_checks (S := fun q => q = tasksIn repo) (taskPath repo c.name) (search d.1 d.2 c.goal).1
      (by rintro q rfl; exact not_below_shorter _ _) (cleared k1 repo c) (tasksIn repo) rfl (by rw [htask]; simp)
    rw [hk2, this, htask]
  obtain ⟨k3, s3, c3, w3, _, n3⟩ := saveAs_fresh k2 t2 (taskPath repo c.name) hne (clear_cons k2 t2 _ _ ht2 hf2) true (Or.inl rfl) c.ms c.ms' r.config r.files
  have hdata : k3 (dataName :: taskPath repo c.name) = none := by
    refine n3 _ (List.suffix_cons _ _) (by simp) ?_ ?_ ?_
    · intro e; rw [List.cons.injEq] at e; exact absurd e.1 (by decide +kernel)
    · intro e; rw [List.cons.injEq] at e; exact absurd e.1 (by decide +kernel)
    · intro f _ e
      have := congrArg List.length e
      simp at this
  rw [hp]
  exact ⟨k1, k3, o1, hpres, hread, s3, saveAs_tree k2 t2 _ hne _ _ _ _ _ s3, c3, hdata, w3, n3⟩

/-- C142. A call for a task that is not complete ends with the whole task in its folder, whatever was in that folder before, and with nothing else in it, if the
search ends with a network. -/
theorem C142_complete (search : Search) (repo : Path) (k : Disk Raw) (c : Call) (d : Str × Option Str) (hk : Ready k repo c d) (r : Trained)
    (hr : (search d.1 d.2 c.goal).2 = some r) :
    ∃ k', createTask search repo k c = (true, k') ∧ Stored k' (taskPath repo c.name) r ∧
      ∀ q, taskPath repo c.name <:+ q → q ≠ taskPath repo c.name → q ≠ configName :: taskPath repo c.name → q ≠ dataName :: taskPath repo c.name →
        q ≠ defaultLabel :: taskPath repo c.name → (∀ f ∈ r.files, q ≠ f.1 :: defaultLabel :: taskPath repo c.name) → k' q = none := by
  have hp : resolve (tasksIn repo) c.name = taskPath repo c.name := resolve_simple _ _ hk.name
  obtain ⟨k1, k3, o1, hpres, hread, s3, t3, c3, hdata, w3, n3⟩ := reaches search repo k c d hk r
  have d3 : k3 (taskPath repo c.name) = some .dir := t3.parent configName _ (by rw [c3]; simp)
  have hw : canWrite k3 (dataName :: taskPath repo c.name) = true := canWrite_ok k3 _ _ d3 (by rw [hdata]; simp)
  have hat : ∀ q, q ≠ dataName :: taskPath repo c.name → writeData k3 (dataName :: taskPath repo c.name) r.header q = k3 q := by
    intro q hq
    unfold writeData put
    rw [if_pos hw, if_neg hq]
  refine ⟨writeData k3 (dataName :: taskPath repo c.name) r.header, ?_, ⟨?_, ?_, ?_, ?_⟩, ?_⟩
  · unfold createTask
    rw [if_neg]
    · unfold createLabelTask
      rw [o1]
      dsimp only
      rw [hpres, if_neg (by simp), hread]
      dsimp only
      rw [hr]
      dsimp only
      rw [s3, hp]
    · intro h
      have h2 := hk.read
      unfold readDatasets at h2
      rw [Option.isNone_iff_eq_none.1 h] at h2
      cases h2
  · rw [hat _ (by simp), d3]
  · rw [hat _ ?_, c3]
    intro e; rw [List.cons.injEq] at e; exact absurd e.1 (by decide +kernel)
  · intro f hf hu
    rw [hat _ ?_, w3 f hf hu]
    intro e
    have := congrArg List.length e
    simp at this
  · unfold writeData put
    rw [if_pos hw, if_pos rfl]
  · intro q h1 h2 h3 h4 h5 h6
    rw [hat q h4, n3 q h1 h2 h3 h5 h6]

/-- C142. A creation that was stopped before the configuration was written is repaired by calling it again: nothing of the attempt is left. -/
theorem C142_repair (search : Search) (repo : Path) (k : Disk Raw) (c : Call) (d : Str × Option Str) (hk : Ready k repo c d)
    (hlog : k (logsIn repo) = some .dir) (k' : Disk Raw) (hm : Moment search repo k c k') (ht : ModelFiles.Tree k')
    (hmiss : k' (configName :: taskPath repo c.name) = none) (r : Trained) (hr : (search d.1 d.2 c.goal).2 = some r) :
    ∃ k'', createTask search repo k' c = (true, k'') ∧ Stored k'' (taskPath repo c.name) r ∧
      ∀ q, taskPath repo c.name <:+ q → q ≠ taskPath repo c.name → q ≠ configName :: taskPath repo c.name → q ≠ dataName :: taskPath repo c.name →
        q ≠ defaultLabel :: taskPath repo c.name → (∀ f ∈ r.files, q ≠ f.1 :: defaultLabel :: taskPath repo c.name) → k'' q = none := by
  have keep := C142_others search repo k c hk.name k' (Or.inl hm)
  have hside : ∀ n : Str, n ≠ text "tasks" → ∀ q, n :: repo <:+ q → ¬ taskPath repo c.name <:+ q := fun n hn q hq h =>
    not_below_sibling repo n _ hn q hq ((List.suffix_cons _ _).trans h)
  refine C142_complete search repo k' c d ⟨ht, ?_, ?_, hk.name, hk.dataset, hk.test, ?_, hmiss⟩ r hr
  · rw [keep _ (not_below_shorter _ _) (task_not_log repo _ (List.suffix_refl _)) (by rw [hk.tasks]; simp), hk.tasks]
  · rw [keep (logsIn repo) (hside (text "logs") (by decide +kernel) _ (List.suffix_refl _)) (by simp [logPath]) (by rw [hlog]; simp), hlog]
    simp
  · have key : ∀ n, SimpleName n → ∀ x, readData k (dataName :: resolve (datasetsIn repo) n) = some x → readData k' (dataName :: resolve (datasetsIn repo) n) = some x := by
      intro n hn x hx
      have hb : datasetsIn repo <:+ dataName :: n :: datasetsIn repo := (List.suffix_cons _ _).trans (List.suffix_cons _ _)
      rw [resolve_simple _ _ hn] at hx ⊢
      have : k (dataName :: n :: datasetsIn repo) ≠ none := by
        intro e; unfold readData at hx; rw [e] at hx; cases hx
      unfold readData at hx ⊢
      rw [keep _ (hside _ (by decide +kernel) _ hb) _ this]
      · exact hx
      · intro e
        exact not_below_sibling repo _ _ (by decide +kernel) _ hb (show logsIn repo <:+ _ by rw [e]; exact List.suffix_cons _ _)
    have h := hk.read
    unfold readDatasets at h ⊢
    cases h1 : readData k (dataName :: resolve (datasetsIn repo) c.dataset) with
    | none => rw [h1] at h; cases h
    | some x =>
      rw [h1] at h
      rw [key _ hk.dataset x h1]
      rcases hk.test with e | hte
      · rw [e] at h ⊢; exact h
      · simp only [Option.bind_some] at h ⊢
        split
        · rename_i e; rw [if_pos e] at h; exact h
        · rename_i e
          rw [if_neg e] at h
          obtain ⟨y, hy, rfl⟩ := Option.map_eq_some_iff.1 h
          rw [key _ hte y hy]
          rfl

/-- C142. A call for a task that is there succeeds and changes nothing but the log. -/
theorem C142_existing (search : Search) (repo : Path) (k : Disk Raw) (hk : ModelFiles.Tree k) (ht : k (tasksIn repo) = some .dir)
    (hl : ∀ x, k (logsIn repo) ≠ some (.file x)) (c : Call) (hn : SimpleName c.name) (r : Trained) (hs : Stored k (taskPath repo c.name) r)
    (hd : ∃ x, readData k (dataName :: resolve (datasetsIn repo) c.dataset) = some x) :
    ∃ k', createTask search repo k c = (true, k') ∧ (∀ q, k q ≠ none → q ≠ logPath repo → k' q = k q) ∧ ∀ q, tasksIn repo <:+ q → k' q = k q := by
  obtain ⟨k1, o1, _, e1, b1, _⟩ := opened_ok k repo hk ht hl
  refine ⟨k1, ?_, e1, b1⟩
  obtain ⟨x, hx⟩ := hd
  unfold createTask
  rw [hx, if_neg (by simp)]
  unfold createLabelTask
  rw [o1, resolve_simple _ _ hn]
  dsimp only
  rw [if_pos]
  have hin : tasksIn repo <:+ taskPath repo c.name := List.suffix_cons _ _
  unfold present
  show ((k1 (taskPath repo c.name)).isSome && (k1 (configName :: taskPath repo c.name)).isSome) = true
  rw [b1 _ hin, b1 _ (hin.trans (List.suffix_cons _ _)), hs.folder, hs.config]
  rfl

/-- Calls of one name, one after the other: the results and the last disk. -/
def again (repo : Path) : List (Search × Call) → Disk Raw → List Bool × Disk Raw
  | [], k => ([], k)
  | c :: cs, k => let r := createTask c.1 repo k c.2; let s := again repo cs r.2; (r.1 :: s.1, s.2)

/-- Once there is a configuration without a description of the columns, every call for the task reports success, and the task cannot be executed. -/
theorem half_stays (repo : Path) (n : Str) (hn : SimpleName n) (calls : List (Search × Call)) :
    ∀ (k : Disk Raw), ModelFiles.Tree k → k (tasksIn repo) = some .dir → k (logsIn repo) = some .dir → k (configName :: taskPath repo n) ≠ none →
      k (dataName :: taskPath repo n) = none →
      (∀ c ∈ calls, c.2.name = n ∧ SimpleName c.2.dataset ∧ ∃ x, readData k (dataName :: resolve (datasetsIn repo) c.2.dataset) = some x) →
      (∀ b ∈ (again repo calls k).1, b = true) ∧ executable repo (again repo calls k).2 n = false := by
  induction calls with
  | nil =>
    intro k _ _ _ _ h _
    refine ⟨by simp [again], ?_⟩
    unfold executable readData again
    rw [resolve_simple _ _ hn]
    show ((k (taskPath repo n)).isSome && (loadNet k (taskPath repo n)).isSome &&
      (match k (dataName :: taskPath repo n) with | some (.file (.text s)) => some s | _ => none).isSome) = false
    rw [h]
    simp
  | cons c calls ih =>
    intro k hk ht hl hc hd hall
    obtain ⟨k1, o1, t1, e1, b1, a1⟩ := opened_ok k repo hk ht (by rw [hl]; simp)
    have hin : tasksIn repo <:+ taskPath repo n := List.suffix_cons _ _
    obtain ⟨rfl, hsd, x, hx⟩ := hall c (by simp)
    have hr : createTask c.1 repo k c.2 = (true, k1) := by
      unfold createTask
      rw [hx, if_neg (by simp)]
      unfold createLabelTask
      rw [o1, resolve_simple _ _ hn]
      dsimp only
      rw [if_pos]
      unfold present
      show ((k1 (taskPath repo c.2.name)).isSome && (k1 (configName :: taskPath repo c.2.name)).isSome) = true
      rw [b1 _ hin, b1 _ (hin.trans (List.suffix_cons _ _)), hk.parent _ _ hc]
      simpa [Option.isSome_iff_ne_none] using hc
    have := ih k1 t1 (by rw [b1 _ (List.suffix_refl _), ht]) (by rw [e1 _ (by rw [hl]; simp) (by simp [logPath]), hl])
      (by rw [b1 _ (hin.trans (List.suffix_cons _ _))]; exact hc) (by rw [b1 _ (hin.trans (List.suffix_cons _ _))]; exact hd) ?_
    · rw [again, hr]
      exact ⟨by intro b hb; rcases List.mem_cons.1 hb with rfl | hb; exacts [rfl, this.1 b hb], this.2⟩
    · intro c' hc'
      obtain ⟨h1, h2, y, hy⟩ := hall c' (List.mem_cons_of_mem _ hc')
      refine ⟨h1, h2, y, ?_⟩
      rw [← hy]
      unfold readData
      rw [resolve_simple _ _ h2, a1 _ ((List.suffix_cons _ _).trans (List.suffix_cons _ _))]

/-- C142 is violated if the call is stopped between saving the network and writing the description of the columns: from then on, every call for this task, however
often, reports success, and the task cannot be executed. -/
theorem C142_stopped_violated (search : Search) (repo : Path) (k : Disk Raw) (c : Call) (d : Str × Option Str) (hk : Ready k repo c d)
    (hlog : k (logsIn repo) = some .dir) (r : Trained) (hr : (search d.1 d.2 c.goal).2 = some r) :
    ∃ k', Moment search repo k c k' ∧ ModelFiles.Tree k' ∧ ∀ calls : List (Search × Call),
      (∀ x ∈ calls, x.2.name = c.name ∧ SimpleName x.2.dataset ∧ ∃ y, readData k' (dataName :: resolve (datasetsIn repo) x.2.dataset) = some y) →
      (∀ b ∈ (again repo calls k').1, b = true) ∧ executable repo (again repo calls k').2 c.name = false := by
  obtain ⟨k1, k3, o1, hpres, hread, s3, t3, c3, hdata, _, _⟩ := reaches search repo k c d hk r
  have hm := Moment.writing k1 k3 k3 d r o1 hpres hread hr s3 (Or.inl rfl)
  refine ⟨k3, hm, t3, fun calls hall => ?_⟩
  have keep := C142_others search repo k c hk.name k3 (Or.inl hm)
  refine half_stays repo c.name hk.name calls k3 t3 ?_ ?_ (by rw [c3]; simp) hdata hall
  · rw [keep _ (not_below_shorter _ _) (task_not_log repo _ (List.suffix_refl _)) (by rw [hk.tasks]; simp), hk.tasks]
  · rw [keep (logsIn repo) (fun h => not_below_sibling repo (text "logs") _ (by decide +kernel) _ (List.suffix_refl _) ((List.suffix_cons _ _).trans h))
      (by simp [logPath]) (by rw [hlog]; simp), hlog]

/-! ### An example -/

/-- A repository with two datasets and a task. -/
def sample : Disk Raw := fun p =>
  if p = [] ∨ p = [text "tasks"] ∨ p = [text "logs"] ∨ p = [text "datasets"] ∨ p = [text "d", text "datasets"] ∨
    p = [text "e", text "datasets"] ∨ p = [text "t", text "tasks"] then some .dir
  else if p = [dataName, text "d", text "datasets"] then some (.file (.text (text "red")))
  else if p = [dataName, text "e", text "datasets"] then some (.file (.text (text "blue")))
  else if p = [configName, text "t", text "tasks"] then some (.file (.text (text "net")))
  else if p = [dataName, text "t", text "tasks"] then some (.file (.text (text "columns")))
  else none

/-- A search that makes a checkpoint and ends with a network that tells the dataset. -/
def sampleSearch : Search := fun d _ _ => ([.save 5 [(text "1", [1])], .remove 5], some ⟨text "cfg", [(text "1", [2])], d⟩)

def sampleCall (name dataset : Str) : Call := ⟨name, text "speed", dataset, [], text "done", 1, 2⟩

theorem sample_tree : ModelFiles.Tree sample := by
  refine ⟨by decide +kernel, ?_⟩
  intro n r h
  unfold sample at h
  split at h
  · rename_i h'
    rcases h' with e | e | e | e | e | e | e <;> simp only [List.cons.injEq, reduceCtorEq] at e <;> obtain ⟨-, rfl⟩ := e <;> decide +kernel
  · split at h
    · rename_i e; simp only [List.cons.injEq] at e; obtain ⟨-, rfl⟩ := e; decide +kernel
    · split at h
      · rename_i e; simp only [List.cons.injEq] at e; obtain ⟨-, rfl⟩ := e; decide +kernel
      · split at h
        · rename_i e; simp only [List.cons.injEq] at e; obtain ⟨-, rfl⟩ := e; decide +kernel
        · split at h
          · rename_i e; simp only [List.cons.injEq] at e; obtain ⟨-, rfl⟩ := e; decide +kernel
          · exact absurd rfl h

theorem sample_ready : Ready sample [] (sampleCall (text "u") (text "d")) (text "red", none) :=
  ⟨sample_tree, by decide +kernel, by rw [show sample (logsIn []) = some .dir by decide +kernel]; simp, by decide +kernel, by decide +kernel, Or.inl rfl, by decide +kernel, by decide +kernel⟩

example : ∃ k', createTask sampleSearch [] sample (sampleCall (text "u") (text "d")) = (true, k') ∧
    Stored k' (taskPath [] (text "u")) ⟨text "cfg", [(text "1", [2])], text "red"⟩ :=
  let ⟨k', h, s, _⟩ := C142_complete sampleSearch [] sample _ _ sample_ready _ rfl
  ⟨k', h, s⟩

/-- C142 is violated by names of folders: creating a task with the name `.` empties the folder of the tasks, in every repository. (Removing the folder itself may
then fail, because `rmdir` does not take `.`, and the call with it; the tasks are gone all the same.) -/
theorem C142_name_violated (search : Search) (repo : Path) (k : Disk Raw) (hk : ModelFiles.Tree k) (ht : k (tasksIn repo) = some .dir)
    (hl : ∀ x, k (logsIn repo) ≠ some (.file x)) (hm : k (configName :: tasksIn repo) = none) (c : Call) (hc : c.name = text ".") :
    ∃ k', Moment search repo k c k' ∧ k' (tasksIn repo) = some .dir ∧ ∀ q, tasksIn repo <:+ q → q ≠ tasksIn repo → k' q = none := by
  obtain ⟨k1, o1, _, _, b1, _⟩ := opened_ok k repo hk ht hl
  have hp : resolve (tasksIn repo) c.name = tasksIn repo := by
    rw [hc]
    have e : components (text ".") = [text "."] := by decide +kernel
    unfold resolve
    rw [e, List.foldl_cons, List.foldl_nil, enter, if_pos (Or.inr rfl)]
  refine ⟨fun q => if tasksIn repo <:+ q ∧ q ≠ tasksIn repo then none else k1 q, Moment.removing k1 _ o1 ?_ ?_, ?_, ?_⟩
  · rw [hp]
    unfold present
    rw [b1 _ (List.suffix_cons _ _), hm]
    simp
  · rw [hp]
    intro q
    dsimp only
    split
    · rename_i h; exact Or.inr ⟨h.1, rfl⟩
    · exact Or.inl rfl
  · show (if _ then _ else _) = _
    rw [if_neg (fun h => h.2 rfl), b1 _ (List.suffix_refl _), ht]
  · intro q hq hne
    show (if _ then _ else _) = _
    rw [if_pos ⟨hq, hne⟩]

/-- The parser takes this name. After the call the other task is gone, whether a network was found or not. -/
theorem C142_name_parsed_violated :
    Parser.parseScript (fun _ => (none : Option Unit)) "create task label . using d".toList =
      .program [.createTask "label".toList ".".toList "accuracy".toList "d".toList "".toList] ∧
    (sample (configName :: taskPath [] (text "t"))).isSome = true ∧
    (createTask sampleSearch [] sample (sampleCall (text ".") (text "d"))).2 (configName :: taskPath [] (text "t")) = none ∧
    (createTask (fun _ _ _ => ([], none)) [] sample (sampleCall (text ".") (text "d"))).2 (taskPath [] (text "t")) = none := by
  decide +kernel

/-- C142 is violated if the dataset is another one: the second call reports success, the task is that of the first dataset. -/
theorem C142_dataset_violated :
    let k1 := (createTask sampleSearch [] sample (sampleCall (text "u") (text "d"))).2
    let r := createTask sampleSearch [] k1 (sampleCall (text "u") (text "e"))
    r.1 = true ∧ r.2 (dataName :: taskPath [] (text "u")) = some (.file (.text (text "red"))) := by
  decide +kernel

/-- The log is open and the rest of an earlier attempt is removed. -/
example : ∃ k', Moment sampleSearch [] sample (sampleCall (text "u") (text "d")) k' ∧ k' (configName :: taskPath [] (text "u")) = none ∧
    k' (logPath []) = some (.file (.text (text "done"))) := by
  obtain ⟨k1, o1, _, _, b1, _⟩ := opened_ok sample [] sample_tree (by decide +kernel) (by rw [show sample (logsIn []) = some .dir by decide +kernel]; simp)
  have e : k1 = ((opened sample []).getD sample) := by rw [o1]; rfl
  refine ⟨_, Moment.cleared k1 o1 (by rw [e]; decide +kernel), by rw [e]; decide +kernel, by rw [e]; decide +kernel⟩

example : Stored sample (taskPath [] (text "t")) ⟨text "net", [], text "columns"⟩ := ⟨by decide +kernel, by decide +kernel, by simp, by decide +kernel⟩

example : ∃ k', createTask sampleSearch [] sample (sampleCall (text "t") (text "d")) = (true, k') ∧ k' (configName :: taskPath [] (text "t")) = some (.file (.text (text "net"))) :=
  let ⟨k', h, e, _⟩ := C142_existing sampleSearch [] sample sample_tree (by decide +kernel) (by rw [show sample (logsIn []) = some .dir by decide +kernel]; simp)
    (sampleCall (text "t") (text "d")) (by decide +kernel) ⟨text "net", [], text "columns"⟩ ⟨by decide +kernel, by decide +kernel, by simp, by decide +kernel⟩
    ⟨text "red", by decide +kernel⟩
  ⟨k', h, by rw [e _ (by decide +kernel) (by decide +kernel)]; decide +kernel⟩

end Verif.TaskFiles
