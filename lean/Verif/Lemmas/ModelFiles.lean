import Verif.Model.ModelFiles
import Verif.Lemmas.DslLoad
import Verif.Props.C15_Csv

/-! Folders, file names and records of saved models. -/

namespace Verif.ModelFiles
open Verif.TextCodec Verif.Decimal Verif.Dsl Verif.Enums

variable {T : Type}

/-! ### The configuration file -/

/-- Characters that need no encoding. -/
def Simple (c : UInt8) : Bool := Csv.isDigit c || (65 ≤ c && c ≤ 90) || (97 ≤ c && c ≤ 122) || c = 45 || c = 46 || c = 95

theorem simple_facts (c : UInt8) (h : Simple c = true) : Csv.isSpace c = false ∧ c ≠ 58 ∧ c ≠ Csv.Q ∧ c ≠ TextCodec.LT ∧ c ≠ NL := by
  have key : ∀ n : Fin 256, Simple (UInt8.ofNat n.val) = true → Csv.isSpace (UInt8.ofNat n.val) = false ∧ UInt8.ofNat n.val ≠ 58 ∧ UInt8.ofNat n.val ≠ Csv.Q ∧
      UInt8.ofNat n.val ≠ TextCodec.LT ∧ UInt8.ofNat n.val ≠ NL := by decide +kernel
  have := key ⟨c.toNat, c.toNat_lt⟩
  simp only [UInt8.ofNat_toNat] at this
  exact this h

theorem dropWhile_none (f : UInt8 → Bool) (s : Str) (h : ∀ c ∈ s, f c = false) : s.dropWhile f = s := by
  cases s with
  | nil => rfl
  | cons c s => rw [List.dropWhile_cons_of_neg (by simp [h c List.mem_cons_self])]

/-- Fields that are read back whatever counts as a number. -/
def Plain (s : Str) : Prop := Csv.strip s = s ∧ ∀ c ∈ s, c ≠ 58 ∧ c ≠ Csv.Q ∧ c ≠ TextCodec.LT ∧ c ≠ NL

instance (s : Str) : Decidable (Plain s) := by unfold Plain; infer_instance

theorem safe_of_plain (num : Str → Bool) (s : Str) (h : Plain s) : Csv.Safe num 58 s := by
  obtain ⟨hstrip, hf⟩ := h
  have hq : Csv.quoted s = false := by
    unfold Csv.quoted
    cases s with
    | nil => rfl
    | cons c s =>
      have := (hf c List.mem_cons_self).2.1
      simp [this]
  refine ⟨hstrip, Or.inr ?_⟩
  cases hn : num s with
  | true => exact Or.inr ⟨hq, rfl, hf⟩
  | false =>
    refine Or.inl ⟨hq, rfl, ?_⟩
    rintro ⟨a, b, e⟩
    have : Csv.Q ∈ s := by rw [← e]; simp
    exact (hf _ this).2.1 rfl

theorem plain_of_simple (s : Str) (h : ∀ c ∈ s, Simple c = true) : Plain s := by
  have hf := fun c hc => simple_facts c (h c hc)
  refine ⟨?_, fun c hc => (hf c hc).2⟩
  unfold Csv.strip
  rw [dropWhile_none _ s fun c hc => (hf c hc).1, dropWhile_none _ s.reverse fun c hc => (hf c (List.mem_reverse.1 hc)).1, List.reverse_reverse]

theorem digits_simple (s : Str) (h : IsDigits s) : ∀ c ∈ s, Simple c = true := by
  intro c hc
  unfold Simple
  rw [h c hc]; rfl

theorem simple_dec (n : Nat) : ∀ c ∈ dec n, Simple c = true := digits_simple _ (dec_spec n).2.1

theorem simple_bool (b : Bool) : ∀ c ∈ asStringBool b, Simple c = true := by cases b <;> decide +kernel

theorem simple_float (x : BitVec 32) : ∀ c ∈ asStringFloat x, Simple c = true := by
  intro c hc
  unfold asStringFloat at hc
  rw [List.mem_append] at hc
  rcases hc with hc | hc
  · split at hc
    · rw [List.mem_singleton] at hc; subst hc; decide
    · cases hc
  · split at hc
    · revert c; decide
    · split at hc
      · revert c; decide
      · rw [List.mem_append, List.mem_cons] at hc
        rcases hc with hc | rfl | hc
        · exact simple_dec _ c hc
        · decide
        · exact digits_simple _ (padded_spec 15 _).1 c hc

theorem simple_kind (k : LayerType) : ∀ c ∈ text (nodeTypeToString k), Simple c = true := by cases k <;> decide +kernel
theorem simple_act (k : ActivationType) : ∀ c ∈ text (activationTypeToString k), Simple c = true := by cases k <;> decide +kernel
theorem simple_loss (k : LossType) : ∀ c ∈ text (lossTypeToString k), Simple c = true := by cases k <;> decide +kernel
theorem plain_optimizer (k : OptimizerType) : Plain (text (optimizerTypeToString k)) := by cases k <;> decide +kernel

theorem simple_vertexRow (id : Nat) (x : Vertex) : ∀ f ∈ vertexRow id x, ∀ c ∈ f, Simple c = true := by
  intro f hf
  unfold vertexRow at hf
  simp only [shapeFields, List.mem_append, List.mem_cons, List.not_mem_nil, or_false, List.mem_flatMap] at hf
  rcases hf with ((hf | hf) | hf) | hf
  · rcases hf with rfl | rfl | rfl | rfl | rfl | rfl | rfl | rfl | rfl | rfl
    · decide +kernel
    · exact simple_dec _
    · exact simple_bool _
    · exact simple_bool _
    · exact simple_kind _
    · exact simple_act _
    · exact simple_bool _
    · exact simple_bool _
    · exact simple_dec _
    · exact simple_dec _
  · obtain ⟨s, _, rfl | rfl | rfl⟩ := hf <;> exact simple_dec _
  · rcases hf with rfl | rfl | rfl <;> exact simple_dec _
  · rcases hf with rfl | rfl | rfl | rfl | rfl | rfl | rfl | rfl
    · exact simple_dec _
    · exact simple_dec _
    · exact simple_bool _
    · exact simple_bool _
    · exact simple_bool _
    · exact simple_float _
    · exact simple_float _
    · exact simple_float _

theorem simple_edgeRow (id : Nat) (l : List Nat) : ∀ f ∈ edgeRow id l, ∀ c ∈ f, Simple c = true := by
  intro f hf
  unfold edgeRow at hf
  simp only [List.mem_cons, List.mem_map] at hf
  rcases hf with rfl | rfl | ⟨n, _, rfl⟩
  · decide +kernel
  · exact simple_dec _
  · exact simple_dec _

theorem plain_settingRows (st : Settings) : ∀ r ∈ settingRows st, r ≠ [] ∧ ∀ f ∈ r, Plain f := by
  intro r hr
  unfold settingRows at hr
  simp only [List.mem_cons, List.not_mem_nil, or_false] at hr
  rcases hr with rfl | rfl | rfl | rfl
  all_goals refine ⟨by simp, ?_⟩
  all_goals intro f hf
  all_goals simp only [List.mem_cons, List.not_mem_nil, or_false] at hf
  all_goals rcases hf with rfl | rfl
  · decide +kernel
  · exact plain_optimizer _
  · decide +kernel
  · exact plain_of_simple _ (simple_float _)
  · decide +kernel
  · exact plain_of_simple _ (simple_float _)
  · decide +kernel
  · exact plain_of_simple _ (simple_loss _)

theorem length_putLines (ls : List Str) : ls.length ≤ (Lines.putLines NL ls).length := by
  induction ls with
  | nil => simp
  | cons l ls ih =>
    have : Lines.putLines NL (l :: ls) = l ++ NL :: Lines.putLines NL ls := by simp [Lines.putLines]
    rw [this, List.length_append, List.length_cons, List.length_cons]
    omega

theorem configRecords_ok (num : Str → Bool) (rows : List (List Str)) (hne : rows ≠ []) (h : ∀ r ∈ rows, r ≠ [] ∧ ∀ f ∈ r, Plain f) :
    configRecords (configText num rows) = some rows := by
  unfold configRecords
  apply Csv.C15_file_partial num 58 (by decide) (by decide) rows (fun r hr => (h r hr).1) (fun r hr f hf => safe_of_plain num f ((h r hr).2 f hf)) hne
  unfold configText
  have := length_putLines (rows.map (Csv.writeRecord num 58))
  rw [List.length_map] at this
  exact this

/-- The records of a description are read back from the text of its configuration file. -/
theorem records_back (num : Str → Bool) (d : Dsl) (st : Settings) (hd : Forward d) (hr : Rooted d) (rows : List (List Str))
    (h : metadata st d = some rows) : configRecords (configText num rows) = some rows := by
  obtain ⟨rs, e, h1, _⟩ := metadata_ok d hd hr st
  rw [h] at e
  cases e
  apply configRecords_ok
  · unfold settingRows; simp
  · intro r hr
    rw [List.mem_append] at hr
    rcases hr with hr | hr
    · exact plain_settingRows st r hr
    · obtain ⟨w, x, _, hx⟩ := h1 r hr
      rcases hx with rfl | ⟨_, rfl⟩
      · exact ⟨by unfold vertexRow; simp, fun f hf => plain_of_simple f (simple_vertexRow w x.1 f hf)⟩
      · exact ⟨by unfold edgeRow; simp, fun f hf => plain_of_simple f (simple_edgeRow _ _ f hf)⟩

/-! ### Names -/

theorem fileName_injective : Function.Injective fileName := by
  rintro ⟨v, q⟩ ⟨v', q'⟩ h
  unfold fileName at h
  simp only at h
  have hd : ∀ (q : Part) (c : UInt8) (u : Str), (match q with
      | .full => text "_full.tensor"
      | .filter i => text "_c2dv_" ++ dec i ++ text ".tensor"
      | .bias => text "_bias.tensor") = c :: u → Csv.isDigit c = false := by
    intro q c u hq
    have : c = 95 := by
      cases q with
      | full => have e : text "_full.tensor" = 95 :: (text "full.tensor") := by decide +kernel
                rw [e] at hq; cases hq; rfl
      | bias => have e : text "_bias.tensor" = 95 :: (text "bias.tensor") := by decide +kernel
                rw [e] at hq; cases hq; rfl
      | filter i => have e : text "_c2dv_" = 95 :: (text "c2dv_") := by decide +kernel
                    rw [e] at hq; cases hq; rfl
    subst this; decide
  have a1 := takeWhile_digits (dec v) _ (dec_spec v).2.1 (hd q)
  have a2 := takeWhile_digits (dec v') _ (dec_spec v').2.1 (hd q')
  have hv : v = v' := dec_injective (a1.1.symm.trans ((congrArg (List.takeWhile Csv.isDigit) h).trans a2.1))
  have hq := a1.2.symm.trans ((congrArg (List.dropWhile Csv.isDigit) h).trans a2.2)
  subst hv
  refine Prod.ext rfl ?_
  simp only
  have e1 : text "_full.tensor" = [95, 102] ++ text "ull.tensor" := by decide +kernel
  have e2 : text "_bias.tensor" = [95, 98] ++ text "ias.tensor" := by decide +kernel
  have e3 : text "_c2dv_" = [95, 99] ++ text "2dv_" := by decide +kernel
  have e4 : text ".tensor" = 46 :: text "tensor" := by decide +kernel
  cases q <;> cases q'
  · rfl
  · simp [e1, e3] at hq
  · simp [e1, e2] at hq
  · simp [e1, e3] at hq
  · rename_i i j
    simp only [List.append_assoc] at hq
    have hq := List.append_cancel_left hq
    have hp : ∀ c u, text ".tensor" = c :: u → Csv.isDigit c = false := by
      intro c u hc
      rw [e4] at hc; cases hc; decide
    have b1 := takeWhile_digits (dec i) _ (dec_spec i).2.1 hp
    have b2 := takeWhile_digits (dec j) _ (dec_spec j).2.1 hp
    rw [dec_injective (b1.1.symm.trans ((congrArg (List.takeWhile Csv.isDigit) hq).trans b2.1))]
  · simp [e2, e3] at hq
  · simp [e1, e2] at hq
  · simp [e2, e3] at hq
  · rfl

theorem stamped_ne (p : Path) (ms : Nat) : stamped p ms ≠ p := by
  unfold stamped
  cases p with
  | nil => simp
  | cons n r =>
    simp only [ne_eq, List.cons.injEq, and_true]
    intro h
    have := congrArg List.length h
    simp at this

theorem stamped_not_below (p : Path) (ms : Nat) (h : p ≠ []) : ¬ p <:+ stamped p ms := by
  intro hs
  have : (stamped p ms).length = p.length := by
    unfold stamped
    cases p with
    | nil => exact absurd rfl h
    | cons n r => rfl
  exact stamped_ne p ms (hs.eq_of_length this.symm).symm

/-! ### Folders -/

/-- Every entry is in a folder, and the root is one. -/
structure Tree (k : Disk T) : Prop where
  root : k [] = some .dir
  parent : ∀ n r, k (n :: r) ≠ none → k r = some .dir

theorem isDir_iff (k : Disk T) (p : Path) : isDir k p = true ↔ k p = some .dir := by
  unfold isDir
  cases k p with
  | none => simp
  | some e => cases e <;> simp

/-- No file is in the way. -/
def Clear (k : Disk T) (p : Path) : Prop := ∀ q, q <:+ p → ∀ c, k q ≠ some (.file c)

theorem Tree.below_none {k : Disk T} (h : Tree k) (p : Path) (hp : k p = none) : ∀ q, p <:+ q → k q = none := by
  intro q
  induction q with
  | nil => intro hs; rw [List.suffix_nil] at hs; subst hs; exact hp
  | cons n r ih =>
    intro hs
    rcases List.suffix_cons_iff.1 hs with rfl | hs
    · exact hp
    · by_contra hne
      rw [h.parent n r hne] at ih
      exact absurd (ih hs) (by simp)

theorem createDirectories_ok (p : Path) (k : Disk T) (hk : Tree k) (hc : Clear k p) :
    ∃ k', createDirectories p k = some k' ∧ Tree k' ∧ k' p = some .dir ∧ (∀ q, ¬ q <:+ p → k' q = k q) ∧ ∀ q, k q ≠ none → k' q = k q := by
  induction p with
  | nil => exact ⟨k, rfl, hk, hk.root, fun _ _ => rfl, fun _ _ => rfl⟩
  | cons n r ih =>
    obtain ⟨k1, e, t1, d1, f1, g1⟩ := ih fun q hq => hc q (hq.trans (List.suffix_cons n r))
    rw [createDirectories, e]
    simp only [Option.bind_some]
    have hnr : ¬ (n :: r) <:+ r := by
      intro h
      have := h.length_le
      simp at this
    have hsame : k1 (n :: r) = k (n :: r) := f1 _ hnr
    cases hv : k1 (n :: r) with
    | none =>
      refine ⟨_, rfl, ⟨?_, ?_⟩, ?_, ?_, ?_⟩
      · unfold put; rw [if_neg (by simp)]; exact t1.root
      · intro m s hms
        unfold put at hms ⊢
        split
        · rfl
        · rename_i hs
          by_cases hm : m :: s = n :: r
          · cases hm; exact d1
          · rw [if_neg hm] at hms
            exact t1.parent m s hms
      · unfold put; rw [if_pos rfl]
      · intro q hq
        unfold put
        rw [if_neg (by rintro rfl; exact hq (List.suffix_refl _)), f1 q fun h => hq (h.trans (List.suffix_cons n r))]
      · intro q hq
        unfold put
        rw [if_neg (by rintro rfl; rw [← hsame, hv] at hq; exact hq rfl)]
        exact g1 q hq
    | some en =>
      cases en with
      | dir =>
        refine ⟨k1, rfl, t1, hv, ?_, g1⟩
        intro q hq
        exact f1 q fun h => hq (h.trans (List.suffix_cons n r))
      | file c => exact absurd (hsame ▸ hv) (hc _ (List.suffix_refl _) c)

theorem removeAll_tree (k : Disk T) (hk : Tree k) (p : Path) (hp : p ≠ []) : Tree (removeAll k p) := by
  refine ⟨?_, ?_⟩
  · unfold removeAll
    rw [if_neg (by rw [List.suffix_nil]; exact hp)]
    exact hk.root
  · intro n r h
    unfold removeAll at h ⊢
    split at h
    · exact absurd rfl h
    · rename_i hs
      rw [if_neg fun h' => hs (h'.trans (List.suffix_cons n r))]
      exact hk.parent n r h

theorem removeAll_clear (k : Disk T) (p q : Path) (h : Clear k q) : Clear (removeAll k p) q := by
  intro s hs c hc
  unfold removeAll at hc
  split at hc
  · cases hc
  · exact h s hs c hc

/-- What `folder` does when it may use the path itself: the path is an empty folder, and nothing else changes except that missing folders above it are made. -/
theorem folder_fresh (k : Disk T) (hk : Tree k) (p : Path) (hp : p ≠ []) (hc : Clear k p) (ow : Bool) (ms : Nat) (h : ow = true ∨ k p = none) :
    ∃ k', folder k p ow ms = some (p, k') ∧ Tree k' ∧ k' p = some .dir ∧ (∀ q, p <:+ q → q ≠ p → k' q = none) ∧
      (∀ q, ¬ p <:+ q → ¬ q <:+ p → k' q = k q) ∧ ∀ q, ¬ p <:+ q → k q ≠ none → k' q = k q := by
  unfold folder
  by_cases hd : isDir k p = true
  · have hd' := (isDir_iff k p).1 hd
    have how : ow = true := by
      rcases h with h | h
      · exact h
      · rw [h] at hd'; cases hd'
    rw [if_pos hd, if_pos how]
    obtain ⟨k', e, t, d, f, g⟩ := createDirectories_ok p (removeAll k p) (removeAll_tree k hk p hp) (removeAll_clear k p p hc)
    rw [e]
    refine ⟨k', rfl, t, d, ?_, ?_, ?_⟩
    · intro q hq hne
      rw [f q fun h => hne (h.eq_of_length (Nat.le_antisymm h.length_le hq.length_le))]
      unfold removeAll
      rw [if_pos hq]
    · intro q h1 h2
      rw [f q h2]
      unfold removeAll
      rw [if_neg h1]
    · intro q h1 h2
      have : removeAll k p q = k q := by unfold removeAll; rw [if_neg h1]
      rw [g q (by rw [this]; exact h2), this]
  · have hn : k p = none := by
      cases hv : k p with
      | none => rfl
      | some en =>
        cases en with
        | dir => exact absurd ((isDir_iff k p).2 hv) hd
        | file c => exact absurd hv (hc p (List.suffix_refl _) c)
    rw [if_neg hd]
    obtain ⟨k', e, t, d, f, g⟩ := createDirectories_ok p k hk hc
    rw [e]
    refine ⟨k', rfl, t, d, ?_, fun q _ h2 => f q h2, fun q _ h2 => g q h2⟩
    intro q hq hne
    rw [f q fun h => hne (h.eq_of_length (Nat.le_antisymm h.length_le hq.length_le))]
    exact hk.below_none p hn q hq

/-- What `folder` does when the path exists and must not be replaced. -/
theorem folder_other (k : Disk T) (hk : Tree k) (p : Path) (hp : k p = some .dir) (ms : Nat) (hc : Clear k (stamped p ms)) :
    ∃ k', folder k p false ms = some (stamped p ms, k') ∧ Tree k' ∧ k' (stamped p ms) = some .dir ∧
      (∀ q, k q ≠ none → k' q = k q) ∧ (∀ q, ¬ q <:+ stamped p ms → k' q = k q) := by
  unfold folder
  rw [if_pos ((isDir_iff k p).2 hp), if_neg (by simp)]
  obtain ⟨k', e, t, d, f, g⟩ := createDirectories_ok (stamped p ms) k hk hc
  rw [e]
  exact ⟨k', rfl, t, d, g, f⟩

theorem canWrite_ok (k : Disk T) (n : Str) (r : Path) (hr : k r = some .dir) (hn : k (n :: r) ≠ some .dir) : canWrite k (n :: r) = true := by
  show (isDir k r && !isDir k (n :: r)) = true
  rw [(isDir_iff k r).2 hr]
  cases h : isDir k (n :: r) with
  | false => rfl
  | true => exact absurd ((isDir_iff _ _).1 h) hn

theorem writeText_ok (k : Disk T) (n : Str) (r : Path) (hr : k r = some .dir) (hn : k (n :: r) ≠ some .dir) (s : Str) :
    writeText k (n :: r) s = some (put k (n :: r) (.file (.text s))) := by
  unfold writeText
  rw [if_pos (canWrite_ok k n r hr hn)]

theorem put_file_tree (k : Disk T) (hk : Tree k) (n : Str) (r : Path) (hr : k r = some .dir) (hn : k (n :: r) ≠ some .dir) (c : Content T) :
    Tree (put k (n :: r) (.file c)) := by
  refine ⟨?_, ?_⟩
  · unfold put; rw [if_neg (by simp)]; exact hk.root
  · intro m s h
    unfold put at h ⊢
    by_cases hm : m :: s = n :: r
    · cases hm
      rw [if_neg (by simp)]
      exact hr
    · rw [if_neg hm] at h
      have := hk.parent m s h
      rw [if_neg (by rintro rfl; exact hn this)]
      exact this

/-- Writing tensors into a folder. -/
theorem writes_ok (files : List (Str × T)) (k : Disk T) (q : Path) (hq : k q = some .dir) (hn : ∀ n, k (n :: q) ≠ some .dir) :
    let k' := files.foldl (fun k f => writeTensor k (f.1 :: q) f.2) k
    (∀ s, (∀ n ∈ files.map Prod.fst, s ≠ n :: q) → k' s = k s) ∧
      ∀ f ∈ files, (∀ g ∈ files, g.1 = f.1 → g.2 = f.2) → k' (f.1 :: q) = some (.file (.tensor f.2)) := by
  induction files generalizing k with
  | nil => exact ⟨fun _ _ => rfl, by simp⟩
  | cons f files ih =>
    simp only [List.foldl_cons]
    have hw : writeTensor k (f.1 :: q) f.2 = put k (f.1 :: q) (.file (.tensor f.2)) := by
      unfold writeTensor
      rw [if_pos (canWrite_ok k f.1 q hq (hn _))]
    rw [hw]
    have hne : q ≠ f.1 :: q := by
      intro h
      have := congrArg List.length h
      simp at this
    have h1 : put k (f.1 :: q) (.file (.tensor f.2)) q = some .dir := by unfold put; rw [if_neg hne]; exact hq
    have h2 : ∀ n, put k (f.1 :: q) (.file (.tensor f.2)) (n :: q) ≠ some .dir := by
      intro n
      unfold put
      split
      · simp
      · exact hn n
    obtain ⟨i1, i2⟩ := ih _ h1 h2
    refine ⟨?_, ?_⟩
    · intro s hs
      rw [i1 s fun n hn => hs n (by simp only [List.map_cons, List.mem_cons]; exact Or.inr hn)]
      unfold put
      rw [if_neg (hs f.1 (by simp))]
    · intro g hg hsame
      by_cases hin : g ∈ files
      · exact i2 g hin fun g' hg' he => hsame g' (List.mem_cons_of_mem _ hg') he
      · rcases List.mem_cons.1 hg with rfl | h
        · by_cases hname : ∃ g' ∈ files, g'.1 = g.1
          · obtain ⟨g', hg', he⟩ := hname
            have h2 := hsame g' (List.mem_cons_of_mem _ hg') he
            have : g' = g := Prod.ext he h2
            exact absurd (this ▸ hg') hin
          · rw [i1]
            · unfold put; rw [if_pos rfl]
            · intro n hn' he
              rw [List.mem_map] at hn'
              obtain ⟨g', hg', rfl⟩ := hn'
              simp only [List.cons.injEq, and_true] at he
              exact hname ⟨g', hg', he.symm⟩
        · exact absurd h hin

/-! ### Visiting the layers -/

theorem visit_ok (d : Dsl) (hd : Forward d) (fuel v : Nat) (h1 : 1 ≤ v) (h2 : v ≤ d.length) (hf : d.length < fuel + v) :
    ∃ l, visit d fuel v = some l ∧ v ∈ l ∧ (∀ w ∈ l, 1 ≤ w ∧ w ≤ d.length ∧ ∀ c ∈ children d w, c ∈ l) := by
  induction fuel generalizing v with
  | zero => omega
  | succ fuel ih =>
    have key : ∀ cs : List Nat, (∀ c ∈ cs, c ∈ children d v) → ∃ ls, cs.mapM (visit d fuel) = some ls ∧
        (∀ c ∈ cs, c ∈ ls.flatten) ∧ ∀ w ∈ ls.flatten, 1 ≤ w ∧ w ≤ d.length ∧ ∀ c ∈ children d w, c ∈ ls.flatten := by
      intro cs
      induction cs with
      | nil => intro _; exact ⟨[], rfl, by simp, by simp⟩
      | cons c cs ihc =>
        intro hcs
        have hc := (mem_children d v c).1 (hcs c List.mem_cons_self)
        have g1 := hd c v hc
        have g2 := parentsAt_range d c v hc
        obtain ⟨l, e, m1, m2⟩ := ih c g2.1 g2.2 (by omega)
        obtain ⟨ls, es, n1, n2⟩ := ihc fun c hc => hcs c (List.mem_cons_of_mem _ hc)
        refine ⟨l :: ls, ?_, ?_, ?_⟩
        · rw [List.mapM_cons, e, es]; rfl
        · intro x hx
          rw [List.flatten_cons, List.mem_append]
          rcases List.mem_cons.1 hx with rfl | hx
          · exact Or.inl m1
          · exact Or.inr (n1 x hx)
        · intro w hw
          rw [List.flatten_cons, List.mem_append] at hw
          rcases hw with hw | hw
          · obtain ⟨a, b, c⟩ := m2 w hw
            exact ⟨a, b, fun x hx => by rw [List.flatten_cons, List.mem_append]; exact Or.inl (c x hx)⟩
          · obtain ⟨a, b, c⟩ := n2 w hw
            exact ⟨a, b, fun x hx => by rw [List.flatten_cons, List.mem_append]; exact Or.inr (c x hx)⟩
    obtain ⟨ls, e, n1, n2⟩ := key (children d v) fun _ h => h
    rw [visit, e]
    refine ⟨_, rfl, List.mem_cons_self, ?_⟩
    intro w hw
    rcases List.mem_cons.1 hw with rfl | hw
    · exact ⟨h1, h2, fun c hc => List.mem_cons_of_mem _ (n1 c hc)⟩
    · obtain ⟨a, b, c⟩ := n2 w hw
      exact ⟨a, b, fun x hx => List.mem_cons_of_mem _ (c x hx)⟩

theorem heads_visited (d : Dsl) (hd : Forward d) (hs : List Nat) (hh : ∀ h ∈ hs, 1 ≤ h ∧ h ≤ d.length) :
    ∃ ls, hs.mapM (visit d (d.length + 1)) = some ls ∧ (∀ c ∈ hs, c ∈ ls.flatten) ∧
      ∀ w ∈ ls.flatten, 1 ≤ w ∧ w ≤ d.length ∧ ∀ c ∈ children d w, c ∈ ls.flatten := by
  induction hs with
  | nil => exact ⟨[], rfl, by simp, by simp⟩
  | cons c cs ihc =>
    obtain ⟨g1, g2⟩ := hh c List.mem_cons_self
    obtain ⟨l, e, m1, m2⟩ := visit_ok d hd (d.length + 1) c g1 g2 (by omega)
    obtain ⟨ls, es, n1, n2⟩ := ihc fun c hc => hh c (List.mem_cons_of_mem _ hc)
    refine ⟨l :: ls, ?_, ?_, ?_⟩
    · rw [List.mapM_cons, e, es]; rfl
    · intro x hx
      rw [List.flatten_cons, List.mem_append]
      rcases List.mem_cons.1 hx with rfl | hx
      · exact Or.inl m1
      · exact Or.inr (n1 x hx)
    · intro w hw
      rw [List.flatten_cons, List.mem_append] at hw
      rcases hw with hw | hw
      · obtain ⟨a, b, c⟩ := m2 w hw
        exact ⟨a, b, fun x hx => by rw [List.flatten_cons, List.mem_append]; exact Or.inl (c x hx)⟩
      · obtain ⟨a, b, c⟩ := n2 w hw
        exact ⟨a, b, fun x hx => by rw [List.flatten_cons, List.mem_append]; exact Or.inr (c x hx)⟩

/-- The slots are exactly the weights of the vertices. -/
theorem slots_ok (d : Dsl) (hd : Forward d) (hr : Rooted d) :
    ∃ l, slots d = some l ∧ ∀ v q, (v, q) ∈ l ↔ ∃ x, vertexAt d v = some x ∧ q ∈ parts x.1 := by
  obtain ⟨ls, e, h1, h2⟩ := heads_visited d hd (heads d) (by
    intro h hh
    obtain ⟨x, hx, _⟩ := (mem_heads d h).1 hh
    have := vertexAt_range d h x hx
    exact ⟨this.1, this.2⟩)
  unfold slots
  rw [e]
  refine ⟨_, rfl, ?_⟩
  have hall : ∀ v, 1 ≤ v → v ≤ d.length → v ∈ ls.flatten := by
    intro v
    induction v using Nat.strong_induction_on with
    | _ v ih =>
      intro hv1 hv2
      obtain ⟨⟨x, ps⟩, hx⟩ := vertexAt_some d v hv1 hv2
      by_cases hp : ps = []
      · exact h1 v ((mem_heads d v).2 ⟨_, hx, hr v _ hx hp⟩)
      · obtain ⟨p, l, rfl⟩ := List.exists_cons_of_ne_nil hp
        have hpm : p ∈ parentsAt d v := by unfold parentsAt; rw [hx]; simp
        have hf := hd v p hpm
        exact (h2 p (ih p hf.2 hf.1 (by omega))).2.2 v ((mem_children d p v).2 hpm)
  intro v q
  simp only [List.mem_flatMap, List.mem_map]
  constructor
  · rintro ⟨w, hw, q', hq', he⟩
    cases he
    cases hx : vertexAt d v with
    | none => rw [hx] at hq'; simp at hq'
    | some x => rw [hx] at hq'; exact ⟨x, rfl, by simpa using hq'⟩
  · rintro ⟨x, hx, hq⟩
    have := vertexAt_range d v x hx
    exact ⟨v, hall v this.1 this.2, q, by rw [hx]; simpa using hq, rfl⟩

end Verif.ModelFiles
