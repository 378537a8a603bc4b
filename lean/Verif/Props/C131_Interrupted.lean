import Verif.Lemmas.Interrupted
import Verif.Props.C59_SaveLoad

/-!
# C131: saving that is interrupted, or that the disk has no room for
-/

namespace Verif.Interrupted
open Verif.TextCodec Verif.ModelFiles Verif.Dsl Verif.Decimal

/-- What can be found after stopping the program includes the disk before and the disk after the call. -/
theorem during_start (k : Disk Raw) (p : Path) (ow : Bool) (ms ms' : Nat) (config : Str) (files : List (Str × Raw)) : SavingAs k p ow ms ms' config files k := by
  refine Or.inl ?_
  unfold Preparing
  split
  · split
    · exact Or.inl fun q => Or.inl rfl
    · exact ⟨[], List.nil_suffix, rfl⟩
  · exact ⟨[], List.nil_suffix, rfl⟩

theorem writingAll_end (q : Path) (files : List (Str × Raw)) (k : Disk Raw) : WritingAll q files k (files.foldl (fun k f => writeTensor k (f.1 :: q) f.2) k) := by
  induction files generalizing k with
  | nil => rfl
  | cons f fs ih => exact Or.inr (ih _)

theorem during_end (k : Disk Raw) (p : Path) (ow : Bool) (ms ms' : Nat) (config : Str) (files : List (Str × Raw)) (k' : Disk Raw)
    (h : saveAs k p ow ms ms' config files = some k') : SavingAs k p ow ms ms' config files k' := by
  unfold saveAs at h
  cases h1 : folder k p ow ms with
  | none => rw [h1] at h; cases h
  | some x =>
    obtain ⟨q, k1⟩ := x
    rw [h1] at h
    simp only [Option.bind_some] at h
    cases h2 : writeText k1 (configName :: q) config with
    | none => rw [h2] at h; cases h
    | some k2 =>
      rw [h2] at h
      simp only [Option.bind_some] at h
      unfold saveKnowledge at h
      obtain ⟨⟨q', k3⟩, h3, rfl⟩ := Option.map_eq_some_iff.1 h
      exact Or.inr ⟨q, k1, h1, Or.inr ⟨k2, h2, Or.inr ⟨q', k3, h3, writingAll_end q' files k3⟩⟩⟩

theorem writingAll_middle (q : Path) (done : List (Str × Raw)) (f : Str × Raw) (rest : List (Str × Raw)) (n : Nat) (k : Disk Raw)
    (h : canWrite (done.foldl (fun k f => writeTensor k (f.1 :: q) f.2) k) (f.1 :: q) = true) :
    WritingAll q (done ++ f :: rest) k (put (done.foldl (fun k f => writeTensor k (f.1 :: q) f.2) k) (f.1 :: q) (.file (.tensor (f.2.take n)))) := by
  induction done generalizing k with
  | nil => exact Or.inl (Or.inr ⟨h, n, rfl⟩)
  | cons g gs ih => exact Or.inr (ih _ h)

/-- What can be found after stopping the program: the old model partly removed, the configuration up to any character, and all complete tensors up to one of which
any number of bytes is there. -/
theorem C131_moments (k : Disk Raw) (p : Path) (ow : Bool) (ms ms' : Nat) (config : Str) (done : List (Str × Raw)) (f : Str × Raw) (rest : List (Str × Raw)) (n : Nat) :
    (∀ gone : Path → Bool, isDir k p = true → ow = true →
      SavingAs k p ow ms ms' config (done ++ f :: rest) fun r => if gone r = true ∧ p <:+ r then none else k r) ∧
    ∀ q k1, folder k p ow ms = some (q, k1) → canWrite k1 (configName :: q) = true →
      SavingAs k p ow ms ms' config (done ++ f :: rest) (put k1 (configName :: q) (.file (.text (config.take n)))) ∧
      ∀ q' k3, folder (put k1 (configName :: q) (.file (.text config))) (defaultLabel :: p) ow ms' = some (q', k3) →
        canWrite (done.foldl (fun k f => writeTensor k (f.1 :: q') f.2) k3) (f.1 :: q') = true →
        SavingAs k p ow ms ms' config (done ++ f :: rest)
          (put (done.foldl (fun k f => writeTensor k (f.1 :: q') f.2) k3) (f.1 :: q') (.file (.tensor (f.2.take n)))) := by
  refine ⟨?_, ?_⟩
  · intro gone hd ho
    refine Or.inl ?_
    unfold Preparing
    rw [if_pos hd, if_pos ho]
    refine Or.inl fun r => ?_
    by_cases hr : gone r = true ∧ p <:+ r
    · exact Or.inr ⟨hr.2, by dsimp only; rw [if_pos hr]⟩
    · exact Or.inl (by dsimp only; rw [if_neg hr])
  · intro q k1 h1 hw
    refine ⟨Or.inr ⟨q, k1, h1, Or.inl (Or.inr ⟨hw, n, rfl⟩)⟩, ?_⟩
    intro q' k3 h3 hw'
    refine Or.inr ⟨q, k1, h1, Or.inr ⟨_, ?_, Or.inr ⟨q', k3, h3, writingAll_middle q' done f rest n k3 hw'⟩⟩⟩
    unfold writeText
    rw [if_pos hw]

/-- C131. Saving without overwriting: at every moment of the call everything that was on the disk before is there unchanged. -/
theorem C131_kept (k : Disk Raw) (hk : Tree k) (p : Path) (hp : p ≠ []) (ms ms' : Nat) (hn : k p = some .dir → k (stamped p ms) = none)
    (hw : k (defaultLabel :: p) = some .dir → k (stamped (defaultLabel :: p) ms') = none) (config : Str) (files : List (Str × Raw)) (k' : Disk Raw)
    (h : SavingAs k p false ms ms' config files k') (q : Path) (hq : k q ≠ none) : k' q = k q := by
  suffices hs : Keeps (fun q => k q ≠ none) k k' from hs q hq hq
  rcases h with h | ⟨r, k1, h1, h⟩
  · exact keeps_preparing k p false ms (by simp) k' h
  · have hr := folder_new k p hp ms hn r k1 h1
    have hc : ¬ k (configName :: r) ≠ none := by
      intro h
      exact h (hk.below_none r hr _ (List.suffix_cons _ _))
    refine (keeps_folder k p false ms (by simp) r k1 h1).trans ?_
    rcases h with h | ⟨k2, h2, h⟩
    · exact keeps_writingText k1 _ _ (Or.inr hc) k' h
    · unfold writeText at h2
      split at h2
      · simp only [Option.some.injEq] at h2
        subst h2
        have h12 : Keeps (fun q => k q ≠ none) k1 (put k1 (configName :: r) (.file (.text config))) := keeps_put _ _ _ (Or.inr hc)
        have h01 : Keeps (fun q => k q ≠ none) k k1 := keeps_folder k p false ms (by simp) r k1 h1
        refine h12.trans ?_
        have hnew : ∀ s, k s = none → ¬ s <:+ r → s ≠ configName :: r → put k1 (configName :: r) (.file (.text config)) s = none := by
          intro s h0 hs hne
          unfold put
          rw [if_neg hne]
          unfold folder at h1
          split at h1
          · rw [if_neg (by simp)] at h1
            obtain ⟨k3, h3, e⟩ := Option.map_eq_some_iff.1 h1
            cases e
            rw [create_elsewhere _ _ _ h3 s hs]; exact h0
          · obtain ⟨k3, h3, e⟩ := Option.map_eq_some_iff.1 h1
            cases e
            rw [create_elsewhere _ _ _ h3 s hs]; exact h0
        have hlen : ∀ (n : Str), ¬ (n :: p) <:+ r := by
          intro n hs
          have := hs.length_le
          rcases folder_path k p false ms r k1 h1 with ⟨rfl, _⟩ | ⟨rfl, _⟩
          · simp at this
          · have e : (stamped p ms).length = p.length := by
              cases p with
              | nil => exact absurd rfl hp
              | cons n r => rfl
            rw [e] at this
            simp at this
        have hdl : defaultLabel ≠ configName := by decide +kernel
        have hlabel : defaultLabel :: p ≠ configName :: r := by
          intro e
          exact hdl (List.cons.inj e).1
        refine keeps_knowledge_new _ p defaultLabel ms' files k hk (fun q h => h) ?_ ?_ ?_ k' h
        · intro hd
          have hpd : k p = some .dir := hk.parent defaultLabel p (by rw [hd]; simp)
          refine hnew _ (hw hd) (hlen _) ?_
          intro e
          rcases folder_path k p false ms r k1 h1 with ⟨rfl, hf⟩ | ⟨rfl, _⟩
          · rw [(isDir_iff k r).2 hpd] at hf
            simp at hf
          · exact stamped_ne p ms (List.cons.inj e).2.symm
        · by_cases h0 : k (defaultLabel :: p) = none
          · exact Or.inl (hnew _ h0 (hlen _) hlabel)
          · exact Or.inr ((h01.trans h12) _ h0 h0)
        · intro s hs
          by_contra h0
          rw [(h01.trans h12) s h0 h0] at hs
          exact h0 hs
      · cases h2

/-- C131. Whatever was saved in that place before is loaded as before, at every moment of a call that does not overwrite. -/
theorem C131_old_model (k : Disk Raw) (hk : Tree k) (p : Path) (hp : p ≠ []) (ms ms' : Nat) (hn : k p = some .dir → k (stamped p ms) = none)
    (hw : k (defaultLabel :: p) = some .dir → k (stamped (defaultLabel :: p) ms') = none) (config : Str) (files : List (Str × Raw)) (k' : Disk Raw)
    (h : SavingAs k p false ms ms' config files k') (m) (hm : loadNet k p = some m) : loadNet k' p = some m :=
  load_kept k k' p (fun q _ hq => C131_kept k hk p hp ms ms' hn hw config files k' h q hq) m hm

/-- C131, restricted. Saving with overwriting: at every moment of the call everything outside the folder of the model is there unchanged. Missing: the model itself,
`C131_lost_violated`. -/
theorem C131_outside_partial (k : Disk Raw) (p : Path) (ms ms' : Nat) (config : Str) (files : List (Str × Raw)) (k' : Disk Raw)
    (h : SavingAs k p true ms ms' config files k') (q : Path) (hq : ¬ p <:+ q) (hn : k q ≠ none) : k' q = k q := by
  suffices hs : Keeps (fun q => ¬ p <:+ q) k k' from hs q hq hn
  have below : ∀ n, ¬ ¬ p <:+ n :: p := fun n h => h (List.suffix_cons n p)
  have folder_is : ∀ (k : Disk Raw) (p r : Path) (ms : Nat) (k1 : Disk Raw), folder k p true ms = some (r, k1) → r = p := by
    intro k p r ms k1 h
    rcases folder_path k p true ms r k1 h with ⟨e, _⟩ | ⟨_, e, _⟩
    · exact e
    · cases e
  rcases h with h | ⟨r, k1, h1, h⟩
  · exact keeps_preparing k p true ms (fun _ _ h => h) k' h
  · refine (keeps_folder k p true ms (fun _ _ h => h) r k1 h1).trans ?_
    have e := folder_is _ _ _ _ _ h1
    subst e
    rcases h with h | ⟨k2, h2, h⟩
    · exact keeps_writingText k1 _ _ (Or.inr (below _)) k' h
    · unfold writeText at h2
      split at h2
      · simp only [Option.some.injEq] at h2
        subst h2
        refine (keeps_put k1 (configName :: r) (.file (.text config)) (Or.inr (below _))).trans ?_
        have hS : ∀ q, ¬ r <:+ q → ¬ (defaultLabel :: r) <:+ q := fun q h1 h2 => h1 ((List.suffix_cons _ _).trans h2)
        rcases h with h | ⟨q, k3, h3, h⟩
        · exact keeps_preparing _ _ true ms' (fun _ => hS) k' h
        · have e := folder_is _ _ _ _ _ h3
          subst e
          refine (keeps_folder _ _ true ms' (fun _ => hS) _ k3 h3).trans (keeps_writingAll _ files k3 ?_ k' h)
          intro n h
          exact h ((List.suffix_cons _ _).trans (List.suffix_cons _ _))
      · cases h2

/-- C131, violated. Saving with overwriting, whatever is saved and whatever was there: stopped at the wrong moment, the call leaves nothing of the model that was in that
place, nothing of the new one, and nothing that could be loaded. -/
theorem C131_lost_violated (k : Disk Raw) (p : Path) (hd : k p = some .dir) (ms ms' : Nat) (config : Str) (files : List (Str × Raw)) :
    ∃ k', SavingAs k p true ms ms' config files k' ∧ (∀ q, p <:+ q → k' q = none) ∧ loadNet k' p = none := by
  have hgone : ∀ q, p <:+ q → removeAll k p q = none := by
    intro q hq
    unfold removeAll
    rw [if_pos hq]
  refine ⟨removeAll k p, Or.inl ?_, hgone, ?_⟩
  · unfold Preparing
    rw [if_pos ((isDir_iff k p).2 hd), if_pos rfl]
    refine Or.inl fun q => ?_
    unfold removeAll
    split
    · rename_i h; exact Or.inr ⟨h, rfl⟩
    · exact Or.inl rfl
  · unfold loadNet
    rw [hgone _ (List.suffix_cons _ _)]

/-- C131. Saving weights under another label, as training does for its checkpoints (neural_network.hpp:540): at every moment, and although the label is overwritten, the
model and its default weights are loaded as before. -/
theorem C131_checkpoint (k : Disk Raw) (p : Path) (label : Str) (h1 : label ≠ defaultLabel) (h2 : label ≠ configName) (ms : Nat) (files : List (Str × Raw)) (k' : Disk Raw)
    (h : SavingKnowledge k p label true ms files k') (m) (hm : loadNet k p = some m) : loadNet k' p = some m := by
  have hS : ∀ q, (q = configName :: p ∨ ∃ n, q = n :: defaultLabel :: p) → ¬ (label :: p) <:+ q := by
    rintro q (rfl | ⟨n, rfl⟩) hs
    · rw [List.suffix_cons_iff] at hs
      rcases hs with e | hs
      · exact h2 (List.cons.inj e).1
      · have := hs.length_le
        simp at this
    · rw [List.suffix_cons_iff] at hs
      rcases hs with e | hs
      · have := congrArg List.length e
        simp at this
      · rw [List.suffix_cons_iff] at hs
        rcases hs with e | hs
        · exact h1 (List.cons.inj e).1
        · have := hs.length_le
          simp at this
  refine load_kept k k' p ?_ m hm
  rcases h with h | ⟨q, k1, e1, h⟩
  · exact keeps_preparing k _ true ms (fun _ => hS) k' h
  · refine (keeps_folder k _ true ms (fun _ => hS) q k1 e1).trans ?_
    rcases folder_path k _ true ms q k1 e1 with ⟨rfl, _⟩ | ⟨_, e, _⟩
    · exact keeps_writingAll _ files k1 (fun n hn => hS _ hn (List.suffix_cons _ _)) k' h
    · cases e

/-! ### The disk is full -/

theorem writeTextOn_eq (room : Path → Nat) (k : Disk Raw) (p : Path) (s : Str) : writeTextOn room k p s = writeText k p (s.take (room p)) := rfl

theorem saveTensor_eq (room : Path → Nat) (k : Disk Raw) (p : Path) (b : Raw) : (saveTensor room k p b).1 = writeTensor k p (b.take (room p)) := rfl

/-- C131. When the disk takes all bytes of all files, the call does what the calls in C59, C60 and C103 do. -/
theorem C131_room (room : Path → Nat) (k : Disk Raw) (p : Path) (ow : Bool) (ms ms' : Nat) (config : Str) (files : List (Str × Raw))
    (hc : ∀ q, config.length ≤ room (configName :: q)) (hf : ∀ f ∈ files, ∀ q, f.2.length ≤ room (f.1 :: q)) :
    saveAsOn room k p ow ms ms' config files = saveAs k p ow ms ms' config files := by
  unfold saveAsOn saveAs
  refine congrArg _ (funext fun x => ?_)
  dsimp only
  rw [writeTextOn_eq, List.take_of_length_le (hc _)]
  refine congrArg _ (funext fun k1 => ?_)
  unfold saveKnowledgeOn saveKnowledge
  refine congrArg (fun f => Option.map f _) (funext fun y => ?_)
  dsimp only
  generalize y.2 = k2
  induction files generalizing k2 with
  | nil => rfl
  | cons f fs ih =>
    rw [List.foldl_cons, List.foldl_cons, saveTensor_eq, List.take_of_length_le (hf f List.mem_cons_self _)]
    exact ih (fun f hf' => hf f (List.mem_cons_of_mem _ hf')) _

/-- With overwriting, saving on such a disk is saving the shortened files. -/
theorem saveAsOn_short (room : Path → Nat) (k : Disk Raw) (p : Path) (ms ms' : Nat) (config : Str) (files : List (Str × Raw)) :
    saveAsOn room k p true ms ms' config files =
      saveAs k p true ms ms' (config.take (room (configName :: p))) (files.map fun f => (f.1, f.2.take (room (f.1 :: defaultLabel :: p)))) := by
  have folder_is : ∀ (k : Disk Raw) (p r : Path) (ms : Nat) (k1 : Disk Raw), folder k p true ms = some (r, k1) → r = p := by
    intro k p r ms k1 h
    rcases folder_path k p true ms r k1 h with ⟨e, _⟩ | ⟨_, e, _⟩
    · exact e
    · cases e
  unfold saveAsOn saveAs
  cases h1 : folder k p true ms with
  | none => rfl
  | some x =>
    obtain ⟨q, k1⟩ := x
    have := folder_is _ _ _ _ _ h1
    subst this
    simp only [Option.bind_some]
    rw [writeTextOn_eq]
    refine congrArg _ (funext fun k2 => ?_)
    unfold saveKnowledgeOn saveKnowledge
    cases h2 : folder k2 (defaultLabel :: q) true ms' with
    | none => rfl
    | some y =>
      obtain ⟨r, k3⟩ := y
      have := folder_is _ _ _ _ _ h2
      subst this
      simp only [Option.map_some, Option.some.injEq]
      rw [List.foldl_map]
      rfl

/-- C131, violated. A disk without room is not reported: whatever number of bytes the disk takes of each file, the call returns normally, and afterwards each file has
just these bytes. -/
theorem C131_full_disk_violated (room : Path → Nat) (k : Disk Raw) (hk : Tree k) (p : Path) (hp : p ≠ []) (hc : Clear k p) (ms ms' : Nat) (config : Str)
    (files : List (Str × Raw)) (hnames : ∀ f ∈ files, ∀ g ∈ files, g.1 = f.1 → g.2 = f.2) :
    ∃ k', saveAsOn room k p true ms ms' config files = some k' ∧ k' (configName :: p) = some (.file (.text (config.take (room (configName :: p))))) ∧
      ∀ f ∈ files, k' (f.1 :: defaultLabel :: p) = some (.file (.tensor (f.2.take (room (f.1 :: defaultLabel :: p))))) := by
  rw [saveAsOn_short]
  obtain ⟨k', e, h1, h2, _⟩ := saveAs_fresh k hk p hp hc true (Or.inl rfl) ms ms' (config.take (room (configName :: p)))
    (files.map fun f => (f.1, f.2.take (room (f.1 :: defaultLabel :: p))))
  refine ⟨k', e, h1, ?_⟩
  intro f hf
  refine h2 (f.1, f.2.take (room (f.1 :: defaultLabel :: p))) (List.mem_map.2 ⟨f, hf, rfl⟩) ?_
  intro g hg he
  obtain ⟨g', hg', rfl⟩ := List.mem_map.1 hg
  simp only at he ⊢
  rw [he, hnames f hf g' hg' he]

/-- C131, violated. `save` of a tensor answers `true` although the file could not be opened, and there is no file. -/
theorem C131_result_violated (room : Path → Nat) (k : Disk Raw) (n : Str) (p : Path) (hp : k p = none) (hk : Tree k) (b : Raw) :
    (saveTensor room k (n :: p) b).2 = true ∧ (saveTensor room k (n :: p) b).1 (n :: p) = none := by
  refine ⟨rfl, ?_⟩
  have hd : isDir k p = false := by
    cases h : isDir k p with
    | false => rfl
    | true => rw [(isDir_iff k p).1 h] at hp; cases hp
  unfold saveTensor
  dsimp only
  rw [if_neg (by show ¬ (isDir k p && _) = true; rw [hd]; simp)]
  exact hk.below_none p hp _ (List.suffix_cons n p)

open BinaryDataset in
/-- C131. A tensor file that lacks even one byte is never mistaken for a complete one: reading it runs past its end (`none`), where the values are indeterminate. There is
no length of a partial file at which reading succeeds with other values. -/
theorem C131_truncated (conv : BitVec 32 → BitVec 32) (t : Tensor (BitVec 32)) (h1 : t.chans < 2 ^ 64) (h2 : t.rows < 2 ^ 64) (h3 : t.cols < 2 ^ 64) (n : Nat) :
    load conv ((save t).take n) = none ↔ n < (save t).length := by
  constructor
  · intro h
    by_contra hn
    rw [List.take_of_length_le (by omega)] at h
    have := reads_save conv t h1 h2 h3 []
    rw [List.append_nil, h] at this
    cases this
  · intro hn
    by_contra h
    obtain ⟨⟨d, rest⟩, h⟩ := Option.ne_none_iff_exists'.1 h
    have e := local_load conv _ _ _ h ((save t).drop n)
    rw [List.take_append_drop] at e
    have e' := reads_save conv t h1 h2 h3 []
    rw [List.append_nil, e] at e'
    simp only [Option.some.injEq, Prod.mk.injEq, List.append_eq_nil_iff, List.drop_eq_nil_iff] at e'
    omega

/-! ### Examples -/

/-- A disk with a saved model: one layer of one weight. -/
def savedDisk : Disk Raw := fun q =>
  if q = [] then some .dir
  else if q = savePath then some .dir
  else if q = savePath.tail then some .dir
  else if q = configName :: savePath then some (.file (.text [1]))
  else if q = defaultLabel :: savePath then some .dir
  else if q = text "1_full.tensor" :: defaultLabel :: savePath then some (.file (.tensor (BinaryDataset.save ⟨1, 1, 1, fun _ _ _ => 7#32⟩)))
  else none

theorem savedDisk_tree : Tree savedDisk := by
  refine ⟨rfl, ?_⟩
  intro n r h
  by_cases h1 : n :: r = savePath
  · rw [show r = savePath.tail by rw [← h1]; rfl]; decide +kernel
  · by_cases h2 : n :: r = savePath.tail
    · rw [show r = savePath.tail.tail by rw [← h2]; rfl]; decide +kernel
    · by_cases h3 : n :: r = configName :: savePath
      · rw [(List.cons.inj h3).2]; decide +kernel
      · by_cases h4 : n :: r = defaultLabel :: savePath
        · rw [(List.cons.inj h4).2]; decide +kernel
        · by_cases h5 : n :: r = text "1_full.tensor" :: defaultLabel :: savePath
          · rw [(List.cons.inj h5).2]; decide +kernel
          · unfold savedDisk at h
            rw [if_neg (by simp), if_neg h1, if_neg h2, if_neg h3, if_neg h4, if_neg h5] at h
            exact absurd rfl h

/-- With this disk the hypotheses of the theorems about both ways of saving are met, and saving is more than one step: the disk in which the old folder is gone and the new
configuration is half written is among those that can be found. -/
example : Tree savedDisk ∧ savedDisk savePath = some .dir ∧ savedDisk (stamped savePath 5) = none ∧ savedDisk (defaultLabel :: savePath) = some .dir ∧
    savedDisk (stamped (defaultLabel :: savePath) 6) = none ∧ savePath ≠ [] ∧
    ∃ k', SavingAs savedDisk savePath true 5 6 [4, 5, 6, 7] [(text "1_full.tensor", [1#8])] k' ∧ k' (configName :: savePath) = some (.file (.text [4, 5])) ∧
      k' (defaultLabel :: savePath) = none := by
  refine ⟨savedDisk_tree, by decide +kernel, by decide +kernel, by decide +kernel, by decide +kernel, by decide +kernel, ?_⟩
  refine ⟨put (put (removeAll savedDisk savePath) savePath .dir) (configName :: savePath) (.file (.text [4, 5])), Or.inr ⟨savePath, put (removeAll savedDisk savePath) savePath .dir, ?_, ?_⟩, ?_, ?_⟩
  · have h1 : isDir savedDisk savePath = true := by decide +kernel
    unfold folder
    rw [if_pos h1, if_pos rfl]
    have h2 : createDirectories savePath (removeAll savedDisk savePath) = some (put (removeAll savedDisk savePath) savePath .dir) := by
      have a : removeAll savedDisk savePath [text "repo"] = some .dir := by decide +kernel
      have b : removeAll savedDisk savePath savePath = none := by decide +kernel
      unfold savePath at a b ⊢
      rw [createDirectories, createDirectories, createDirectories]
      simp only [Option.bind_some, a, b]
    rw [h2]
    rfl
  · refine Or.inl (Or.inr ⟨by decide +kernel, 2, rfl⟩)
  · decide +kernel
  · decide +kernel

/-- A file cut in the header and a file cut in the values. -/
example : BinaryDataset.load id ((BinaryDataset.save ⟨1, 2, 1, fun _ c _ => BitVec.ofNat 32 c⟩).take 20) = none ∧
    BinaryDataset.load id ((BinaryDataset.save ⟨1, 2, 1, fun _ c _ => BitVec.ofNat 32 c⟩).take 31) = none ∧
    BinaryDataset.load id ((BinaryDataset.save ⟨1, 2, 1, fun _ c _ => BitVec.ofNat 32 c⟩).take 32) ≠ none := by decide +kernel

end Verif.Interrupted
