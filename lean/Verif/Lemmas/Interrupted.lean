import Verif.Model.Interrupted
import Verif.Lemmas.ModelFiles
import Verif.Lemmas.BinaryDataset

namespace Verif.Interrupted
open Verif.TextCodec Verif.ModelFiles

/-- What is on the disk `k` and satisfies `S` is on the disk `k'` as well, unchanged. -/
def Keeps (S : Path → Prop) (k k' : Disk Raw) : Prop := ∀ q, S q → k q ≠ none → k' q = k q

variable {S : Path → Prop}

theorem Keeps.refl (k : Disk Raw) : Keeps S k k := fun _ _ _ => rfl

theorem Keeps.trans {a b c : Disk Raw} (h : Keeps S a b) (h' : Keeps S b c) : Keeps S a c := by
  intro q hq hn
  have e := h q hq hn
  rw [h' q hq (by rw [e]; exact hn), e]

theorem keeps_create (p : Path) (k k' : Disk Raw) (h : createDirectories p k = some k') : Keeps S k k' := by
  induction p generalizing k' with
  | nil => cases h; exact Keeps.refl _
  | cons n r ih =>
    rw [createDirectories] at h
    cases h1 : createDirectories r k with
    | none => rw [h1] at h; cases h
    | some k1 =>
      rw [h1] at h
      simp only [Option.bind_some] at h
      have := ih k1 h1
      cases hv : k1 (n :: r) with
      | none =>
        rw [hv] at h
        simp only [Option.some.injEq] at h
        subst h
        refine this.trans ?_
        intro q _ hn
        unfold put
        rw [if_neg (by rintro rfl; exact hn hv)]
      | some e =>
        rw [hv] at h
        cases e with
        | dir => simp only [Option.some.injEq] at h; subst h; exact this
        | file c => cases h

theorem create_elsewhere (p : Path) (k k' : Disk Raw) (h : createDirectories p k = some k') (q : Path) (hq : ¬ q <:+ p) : k' q = k q := by
  induction p generalizing k' with
  | nil => cases h; rfl
  | cons n r ih =>
    rw [createDirectories] at h
    cases h1 : createDirectories r k with
    | none => rw [h1] at h; cases h
    | some k1 =>
      rw [h1] at h
      simp only [Option.bind_some] at h
      have := ih k1 h1 fun h => hq (h.trans (List.suffix_cons n r))
      cases hv : k1 (n :: r) with
      | none =>
        rw [hv] at h
        simp only [Option.some.injEq] at h
        subst h
        unfold put
        rw [if_neg (by rintro rfl; exact hq (List.suffix_refl _)), this]
      | some e =>
        rw [hv] at h
        cases e with
        | dir => simp only [Option.some.injEq] at h; subst h; exact this
        | file c => cases h

theorem keeps_creating (k : Disk Raw) (p : Path) (k' : Disk Raw) (h : Creating k p k') : Keeps S k k' := by
  obtain ⟨r, _, h⟩ := h
  exact keeps_create r k k' h

theorem keeps_removing (k : Disk Raw) (p : Path) (hS : ∀ q, S q → ¬ p <:+ q) (k' : Disk Raw) (h : Removing k p k') : Keeps S k k' := by
  intro q hq _
  rcases h q with h | h
  · exact h
  · exact absurd h.1 (hS q hq)

theorem keeps_removeAll (k : Disk Raw) (p : Path) (hS : ∀ q, S q → ¬ p <:+ q) : Keeps S k (removeAll k p) := by
  intro q hq _
  unfold removeAll
  rw [if_neg (hS q hq)]

theorem keeps_put (k : Disk Raw) (p : Path) (e : Entry Raw) (h : k p = none ∨ ¬ S p) : Keeps S k (put k p e) := by
  intro q hq hn
  unfold put
  rw [if_neg]
  rintro rfl
  rcases h with h | h
  · exact hn h
  · exact h hq

theorem keeps_preparing (k : Disk Raw) (p : Path) (ow : Bool) (ms : Nat) (hS : ow = true → ∀ q, S q → ¬ p <:+ q) (k' : Disk Raw) (h : Preparing k p ow ms k') :
    Keeps S k k' := by
  unfold Preparing at h
  split at h
  · split at h
    · rename_i how
      rcases h with h | h
      · exact keeps_removing k p (hS how) k' h
      · exact (keeps_removeAll k p (hS how)).trans (keeps_creating _ _ _ h)
    · exact keeps_creating _ _ _ h
  · exact keeps_creating _ _ _ h

theorem keeps_folder (k : Disk Raw) (p : Path) (ow : Bool) (ms : Nat) (hS : ow = true → ∀ q, S q → ¬ p <:+ q) (q : Path) (k' : Disk Raw)
    (h : folder k p ow ms = some (q, k')) : Keeps S k k' := by
  unfold folder at h
  split at h
  · split at h
    · rename_i how
      obtain ⟨k1, h1, e⟩ := Option.map_eq_some_iff.1 h
      cases e
      exact (keeps_removeAll k p (hS how)).trans (keeps_create _ _ _ h1)
    · obtain ⟨k1, h1, e⟩ := Option.map_eq_some_iff.1 h
      cases e
      exact keeps_create _ _ _ h1
  · obtain ⟨k1, h1, e⟩ := Option.map_eq_some_iff.1 h
    cases e
    exact keeps_create _ _ _ h1

theorem keeps_writingTensor (k : Disk Raw) (p : Path) (b : Raw) (hp : k p = none ∨ ¬ S p) (k' : Disk Raw) (h : WritingTensor k p b k') : Keeps S k k' := by
  rcases h with rfl | ⟨_, n, rfl⟩
  · exact Keeps.refl _
  · exact keeps_put _ _ _ hp

theorem keeps_writingText (k : Disk Raw) (p : Path) (s : Str) (hp : k p = none ∨ ¬ S p) (k' : Disk Raw) (h : WritingText k p s k') : Keeps S k k' := by
  rcases h with rfl | ⟨_, n, rfl⟩
  · exact Keeps.refl _
  · exact keeps_put _ _ _ hp

theorem keeps_writeTensor (k : Disk Raw) (p : Path) (b : Raw) (hp : ¬ S p) : Keeps S k (writeTensor k p b) := by
  unfold writeTensor
  split
  · exact keeps_put _ _ _ (Or.inr hp)
  · exact Keeps.refl _

theorem keeps_writingAll (q : Path) (files : List (Str × Raw)) (k : Disk Raw) (hq : ∀ n, ¬ S (n :: q)) (k' : Disk Raw) (h : WritingAll q files k k') :
    Keeps S k k' := by
  induction files generalizing k with
  | nil => rw [show k' = k from h]; exact Keeps.refl _
  | cons f fs ih =>
    rcases h with h | h
    · exact keeps_writingTensor k _ _ (Or.inr (hq _)) k' h
    · exact (keeps_writeTensor k _ _ (hq _)).trans (ih _ h)

/-- Where `folder` puts things: the path itself or the other one. -/
theorem folder_path (k : Disk Raw) (p : Path) (ow : Bool) (ms : Nat) (q : Path) (k' : Disk Raw) (h : folder k p ow ms = some (q, k')) :
    q = p ∧ (ow = true ∨ isDir k p = false) ∨ q = stamped p ms ∧ ow = false ∧ isDir k p = true := by
  unfold folder at h
  split at h
  · rename_i hd
    split at h
    · rename_i how
      obtain ⟨k1, h1, e⟩ := Option.map_eq_some_iff.1 h
      cases e
      exact Or.inl ⟨rfl, Or.inl how⟩
    · rename_i how
      obtain ⟨k1, h1, e⟩ := Option.map_eq_some_iff.1 h
      cases e
      exact Or.inr ⟨rfl, by simpa using how, hd⟩
  · rename_i hd
    obtain ⟨k1, h1, e⟩ := Option.map_eq_some_iff.1 h
    cases e
    exact Or.inl ⟨rfl, Or.inr (by simpa using hd)⟩

/-- With `createDirectories` successful, a path that was no folder was nothing. -/
theorem create_free (p : Path) (k k' : Disk Raw) (h : createDirectories p k = some k') : k p = some .dir ∨ k p = none ∨ p = [] := by
  cases p with
  | nil => exact Or.inr (Or.inr rfl)
  | cons n r =>
    rw [createDirectories] at h
    cases h1 : createDirectories r k with
    | none => rw [h1] at h; cases h
    | some k1 =>
      rw [h1] at h
      simp only [Option.bind_some] at h
      have e := create_elsewhere r k k1 h1 (n :: r) (by
        intro h
        have := h.length_le
        simp at this)
      rw [e] at h
      cases hv : k (n :: r) with
      | none => exact Or.inr (Or.inl rfl)
      | some en =>
        rw [hv] at h
        cases en with
        | dir => exact Or.inl rfl
        | file c => cases h

/-- When nothing is overwritten, the folder that is used was not there before, unless the clock shows a time at which something was saved already. -/
theorem folder_new (k : Disk Raw) (p : Path) (hp : p ≠ []) (ms : Nat) (hn : k p = some .dir → k (stamped p ms) = none) (q : Path) (k' : Disk Raw)
    (h : folder k p false ms = some (q, k')) : k q = none := by
  rcases folder_path k p false ms q k' h with ⟨rfl, hd⟩ | ⟨rfl, _, hd⟩
  · have hd : isDir k q = false := by rcases hd with hd | hd; · cases hd
                                      · exact hd
    unfold folder at h
    rw [if_neg (by rw [hd]; simp)] at h
    obtain ⟨k1, h1, _⟩ := Option.map_eq_some_iff.1 h
    rcases create_free q k k1 h1 with e | e | e
    · rw [(isDir_iff k q).2 e] at hd; cases hd
    · exact e
    · exact absurd e hp
  · exact hn ((isDir_iff k p).1 hd)

/-- Saving the weights where nothing is overwritten. -/
theorem keeps_knowledge_new (k : Disk Raw) (p : Path) (label : Str) (ms : Nat) (files : List (Str × Raw)) (k0 : Disk Raw) (hk0 : Tree k0)
    (hS : ∀ q, S q → k0 q ≠ none) (hn : k0 (label :: p) = some .dir → k (stamped (label :: p) ms) = none)
    (hsame : k (label :: p) = none ∨ k (label :: p) = k0 (label :: p)) (h0 : ∀ q, k q = none → k0 q = none) (k' : Disk Raw)
    (h : SavingKnowledge k p label false ms files k') : Keeps S k k' := by
  rcases h with h | ⟨q, k1, h1, h2⟩
  · exact keeps_preparing k _ false ms (by simp) k' h
  · have hq : k q = none := by
      refine folder_new k (label :: p) (by simp) ms ?_ q k1 h1
      intro hd
      rcases hsame with hs | hs
      · rw [hs] at hd; cases hd
      · exact hn (hs ▸ hd)
    refine (keeps_folder k _ false ms (by simp) q k1 h1).trans (keeps_writingAll q files k1 ?_ k' h2)
    intro n hs
    exact hS _ hs (hk0.below_none q (h0 q hq) _ (List.suffix_cons n q))

/-! ### Loading does not depend on what is added -/

theorem mapM_mono {A B : Type} (f g : A → Option B) (l : List A) (h : ∀ a ∈ l, ∀ b, f a = some b → g a = some b) (r : List B) (hr : l.mapM f = some r) :
    l.mapM g = some r := by
  induction l generalizing r with
  | nil => exact hr
  | cons a l ih =>
    rw [List.mapM_cons] at hr ⊢
    cases ha : f a with
    | none => rw [ha] at hr; cases hr
    | some b =>
      rw [ha] at hr
      cases hl : l.mapM f with
      | none => rw [hl] at hr; cases hr
      | some bs =>
        rw [hl] at hr
        rw [h a List.mem_cons_self b ha, ih (fun a ha => h a (List.mem_cons_of_mem _ ha)) bs hl]
        exact hr

/-- A model that is still there is loaded. -/
theorem load_kept (k k' : Disk Raw) (p : Path) (hc : Keeps (fun q => q = configName :: p ∨ ∃ n, q = n :: defaultLabel :: p) k k') (m)
    (h : loadNet k p = some m) : loadNet k' p = some m := by
  unfold loadNet at h ⊢
  cases hv : k (configName :: p) with
  | none => rw [hv] at h; cases h
  | some e =>
    rw [hc (configName :: p) (Or.inl rfl) (by rw [hv]; simp), hv]
    rw [hv] at h
    cases e with
    | dir => cases h
    | file c =>
      cases c with
      | tensor t => cases h
      | text s =>
        dsimp only at h ⊢
        cases h1 : configRecords s with
        | none => rw [h1] at h; cases h
        | some rows =>
          rw [h1] at h
          simp only [Option.bind_some] at h ⊢
          cases h2 : Dsl.load rows with
          | none => rw [h2] at h; cases h
          | some sd =>
            rw [h2] at h
            simp only [Option.bind_some] at h ⊢
            obtain ⟨w, hw, e⟩ := Option.map_eq_some_iff.1 h
            have : loadKnowledge k' p defaultLabel sd.2 = some w := by
              unfold loadKnowledge at hw ⊢
              cases hl : slots sd.2 with
              | none => rw [hl] at hw; cases hw
              | some l =>
                rw [hl] at hw
                simp only [Option.bind_some] at hw ⊢
                refine mapM_mono _ _ l ?_ w hw
                intro s _ b hb
                unfold readTensor at hb ⊢
                cases hs : k (fileName s :: defaultLabel :: p) with
                | none => rw [hs] at hb; cases hb
                | some en =>
                  rw [hc _ (Or.inr ⟨_, rfl⟩) (by rw [hs]; simp)]
                  exact hb
            rw [this]
            exact congrArg some e

/-! ### Tensor files that are too short -/

open BinaryDataset

/-- What a read gives does not depend on what follows. -/
def Local {α : Type} (r : Read α) : Prop := ∀ bs a rest, r bs = some (a, rest) → ∀ more, r (bs ++ more) = some (a, rest ++ more)

theorem local_bytes (n : Nat) : Local (readBytes n) := by
  intro bs a rest h more
  unfold readBytes at h ⊢
  split at h
  · rename_i hn
    simp only [Option.some.injEq, Prod.mk.injEq] at h
    rw [if_pos (by rw [List.length_append]; omega), List.take_append_of_le_length hn, List.drop_append_of_le_length hn, h.1, h.2]
  · cases h

theorem local_bind {α β : Type} (r : Read α) (f : α → Read β) (hr : Local r) (hf : ∀ a, Local (f a)) : Local (fun bs => (r bs).bind fun x => f x.1 x.2) := by
  intro bs b rest h more
  dsimp only at h ⊢
  cases h1 : r bs with
  | none => rw [h1] at h; cases h
  | some x =>
    rw [h1] at h
    rw [hr bs x.1 x.2 h1 more]
    exact hf x.1 _ _ _ h more

theorem local_map {α β : Type} (r : Read α) (f : α → β) (hr : Local r) : Local (fun bs => (r bs).map fun x => (f x.1, x.2)) := by
  intro bs b rest h more
  dsimp only at h ⊢
  cases h1 : r bs with
  | none => rw [h1] at h; cases h
  | some x =>
    rw [h1] at h
    rw [hr bs x.1 x.2 h1 more]
    simp only [Option.map_some, Option.some.injEq, Prod.mk.injEq] at h ⊢
    exact ⟨h.1, by rw [h.2]⟩

theorem local_lift {α β : Type} (r : Read α) (f : α → Option β) (hr : Local r) : Local (fun bs => (r bs).bind fun x => (f x.1).map (·, x.2)) := by
  refine local_bind r (fun a bs => (f a).map (·, bs)) hr ?_
  intro a bs b rest h more
  dsimp only at h ⊢
  cases h1 : f a with
  | none => rw [h1] at h; cases h
  | some y =>
    rw [h1] at h
    simp only [Option.map_some, Option.some.injEq, Prod.mk.injEq] at h ⊢
    exact ⟨h.1, by rw [h.2]⟩

theorem local_u64 : Local readU64 := local_lift _ _ (local_bytes 8)
theorem local_u32 : Local readU32 := local_lift _ _ (local_bytes 4)

theorem local_many {α : Type} (r : Read α) (hr : Local r) (n : Nat) : Local (readMany r n) := by
  induction n with
  | zero =>
    intro bs a rest h more
    rw [readMany] at h ⊢
    simp only [Option.some.injEq, Prod.mk.injEq] at h ⊢
    exact ⟨h.1, by rw [h.2]⟩
  | succ n ih =>
    have := local_bind r (fun a bs => (readMany r n bs).map fun x => (a :: x.1, x.2)) hr fun a => local_map (readMany r n) (fun l => a :: l) ih
    intro bs a rest h more
    rw [readMany] at h ⊢
    exact this bs a rest h more

theorem local_load (conv : BitVec 32 → BitVec 32) : Local (load conv) := by
  have h : ∀ rows cols chans, Local (loadBody conv rows cols chans) := fun rows cols chans =>
    local_many _ (local_many _ (local_many _ (local_map _ _ local_u32) _) _) _
  exact local_bind readU64 (fun chans bs => (readU64 bs).bind fun x => (readU64 x.2).bind fun y => loadBody conv x.1.toNat y.1.toNat chans.toNat y.2) local_u64
    fun chans => local_bind readU64 (fun rows bs => (readU64 bs).bind fun y => loadBody conv rows.toNat y.1.toNat chans.toNat y.2) local_u64
      fun rows => local_bind readU64 (fun cols => loadBody conv rows.toNat cols.toNat chans.toNat) local_u64 fun cols => h _ _ _

end Verif.Interrupted
