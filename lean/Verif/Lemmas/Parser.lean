import Verif.Model.Parser

/-! Helper lemmas for the parser: every step leaves a shorter stream, so the loops end. -/
namespace Verif.Parser

/-- The step ended, and if it succeeded at most `n` tokens are left. -/
def Within {α : Type} (n : Nat) : R α → Prop
  | .ok _ rest => rest.length ≤ n
  | .diverges => False
  | _ => True

theorem Within.bind {α β : Type} {n m : Nat} {x : R α} {f : α → List Tok → R β} (hx : Within n x)
    (hf : ∀ a rest, rest.length ≤ n → Within m (f a rest)) : Within m (x.bind f) := by
  cases x with
  | ok a rest => exact hf a rest hx
  | error => trivial
  | runtimeError => trivial
  | logicError => trivial
  | diverges => exact hx

theorem Within.mono {α : Type} {n m : Nat} {x : R α} (hx : Within n x) (h : n ≤ m) : Within m x := by
  cases x with
  | ok a rest => exact Nat.le_trans hx h
  | diverges => exact hx
  | _ => trivial

theorem Within.catch {α : Type} {n : Nat} {x : R α} (hx : Within n x) : Within n x.catchRuntime := by
  cases x <;> exact hx

theorem next_within (ts : List Tok) : Within (ts.length - 1) (next ts) := by
  cases ts <;> simp [next, Within]

theorem nextNumber_within (ts : List Tok) : Within (ts.length - 1) (nextNumber ts) := by
  cases ts with
  | nil => simp [nextNumber, Within]
  | cons t ts =>
    simp only [nextNumber]
    cases stoi t.value <;> simp [Within]

variable {F : Type}

theorem parseHelp_within (ts : List Tok) : Within ts.length (parseHelp (F := F) ts) := by
  cases ts <;> simp [parseHelp, Within]

theorem parsePrint_within (ts : List Tok) : Within ts.length (parsePrint (F := F) ts) := by
  cases ts with
  | nil => simp [parsePrint, Within]
  | cons t ts =>
    unfold parsePrint
    dsimp only
    split
    · trivial
    · refine (next_within ts).bind fun a rest h => ?_
      match rest, h with
      | [], _ => simp [Within]
      | l :: ts', h =>
        dsimp only
        split
        · simp only [Within, List.length_cons] at h ⊢; omega
        · refine (nextNumber_within ts').bind fun n r hr => ?_
          simp only [Within, List.length_cons] at h ⊢; omega

theorem parseDims_within (ts : List Tok) : Within ts.length (parseDims ts) := by
  unfold parseDims
  refine (nextNumber_within ts).bind fun a r h => ?_
  match r, h with
  | [], _ => trivial
  | t :: r, h =>
    simp only [List.length_cons] at h
    dsimp only
    split
    · simp only [Within]; omega
    · split
      · trivial
      · refine (nextNumber_within r).bind fun b r2 h2 => ?_
        refine (next_within r2).bind fun t r3 h3 => ?_
        split
        · simp only [Within]; omega
        · split
          · trivial
          · refine (nextNumber_within r3).bind fun b r4 h4 => ?_
            refine (next_within r4).bind fun t r5 h5 => ?_
            split
            · trivial
            · simp only [Within]; omega

theorem parseAt_within (id : Nat) (u d l : List Char) (dim : Nat × Nat × Nat) (a : Tok) (ts : List Tok) :
    Within ts.length (parseAt id u d l dim a ts) := by
  unfold parseAt
  split
  · trivial
  · refine (nextNumber_within ts).bind fun n r h => ?_
    simp only [Within]; omega

theorem parseColumnGroup_within (id : Nat) (u : List Char) (ts : List Tok) :
    Within (ts.length - 1) (parseColumnGroup id u ts) := by
  match ts with
  | [] => simp [parseColumnGroup, Within]
  | [_] => simp [parseColumnGroup, Within]
  | type :: name :: ts =>
    unfold parseColumnGroup
    refine (next_within ts).bind fun t r h => ?_
    simp only [List.length_cons]
    split
    · refine (parseDims_within r).bind fun d r2 h2 => ?_
      refine (next_within r2).bind fun t r3 h3 => ?_
      exact (parseAt_within _ _ _ _ _ _ _).mono (by omega)
    · exact (parseAt_within _ _ _ _ _ _ _).mono (by omega)

theorem parseLocation_within (ts : List Tok) : Within ts.length (parseLocation ts) := by
  cases ts with
  | nil => trivial
  | cons t ts =>
    unfold parseLocation
    dsimp only
    split
    · trivial
    · split
      · trivial
      · have := (List.dropWhile_sublist inLocation (l := ts.drop 3)).length_le
        simp only [Within, List.length_cons, List.length_drop] at this ⊢; omega

theorem taskWith_within (goal test : List Char) (ts : List Tok) : Within ts.length (taskWith goal test ts) := by
  induction goal, test, ts using taskWith.induct with
  | case1 => simp [taskWith, Within]
  | case2 g t tok h => simp [taskWith, h, Within]
  | case3 g t tok h x => simp [taskWith, h, Within]
  | case4 g t tok h p v ts h2 ih =>
    rw [taskWith]; simp only [h, if_true, h2]; exact ih.mono (by simp; omega)
  | case5 g t tok h p v ts h2 h3 ih =>
    rw [taskWith, if_pos h, if_neg h2, if_pos h3]; exact ih.mono (by simp; omega)
  | case6 g t tok h p v ts h2 h3 =>
    rw [taskWith, if_pos h]; simp only [h2, h3, if_false]; trivial
  | case7 g t tok ts h => unfold taskWith; rw [if_neg h]; simp [Within]

theorem parseCreateTask_within (ts : List Tok) : Within ts.length (parseCreateTask (F := F) ts) := by
  unfold parseCreateTask
  apply Within.catch
  match ts with
  | [] => trivial
  | [_] => trivial
  | [_, _] => trivial
  | type :: name :: t :: ts =>
    refine (taskWith_within _ _ (t :: ts)).bind fun gt r h => ?_
    match r, h with
    | [], _ => trivial
    | u :: r, h =>
      dsimp only
      split
      · trivial
      · match r, h with
        | [], _ => trivial
        | d :: r, h => simp only [Within, List.length_cons] at h ⊢; omega

theorem datasetWith_within : ∀ (fuel : Nat) (hd : Bool) (gs : List ColGroup) (ts : List Tok), ts.length < fuel →
    Within ts.length (datasetWith fuel hd gs ts) := by
  intro fuel
  induction fuel with
  | zero => intro hd gs ts h; omega
  | succ f ih =>
    intro hd gs ts h
    cases ts with
    | nil => simp [datasetWith, Within]
    | cons t ts =>
      simp only [List.length_cons] at h ⊢
      unfold datasetWith
      split
      · cases ts with
        | nil => trivial
        | cons w ts =>
          simp only [List.length_cons] at h ⊢
          split
          · exact (ih _ _ ts (by omega)).mono (by omega)
          · split
            · refine (parseColumnGroup_within _ _ ts).bind fun g r hr => ?_
              exact (ih _ _ r (by omega)).mono (by omega)
            · trivial
      · simp [Within]

theorem parseCreateDataset_within (ts : List Tok) : Within ts.length (parseCreateDataset (F := F) ts) := by
  unfold parseCreateDataset
  apply Within.catch
  cases ts with
  | nil => trivial
  | cons name ts =>
    dsimp only
    split
    · trivial
    · split
      · trivial
      · refine (datasetWith_within (ts.length + 1) _ _ ts (by omega)).bind fun hg r h => ?_
        cases r with
        | nil => trivial
        | cons u r =>
          dsimp only
          split
          · trivial
          · refine (parseLocation_within r).bind fun l r2 h2 => ?_
            simp only [Within, List.length_cons] at h ⊢; omega

theorem parseCreate_within (ts : List Tok) : Within ts.length (parseCreate (F := F) ts) := by
  cases ts with
  | nil => trivial
  | cons t ts =>
    unfold parseCreate
    dsimp only
    split
    · exact (parseCreateDataset_within ts).mono (by simp)
    · split
      · exact (parseCreateTask_within ts).mono (by simp)
      · trivial

variable (stof : List Char → Option F)

theorem parseList_within (ts : List Tok) : ∀ acc, Within ts.length (parseList stof acc ts) := by
  induction ts with
  | nil => intro acc; simp [parseList, Within]
  | cons t ts ih =>
    intro acc
    unfold parseList
    split
    · simp [Within]
    · split
      · exact (ih _).mono (by simp)
      · split
        · trivial
        · exact (ih _).mono (by simp)

theorem inputLoop_within : ∀ (fuel : Nat) (m : List (List Char × List (Value F))) (ts : List Tok), ts.length < fuel →
    Within ts.length (inputLoop stof fuel m ts) := by
  intro fuel
  induction fuel with
  | zero => intro m ts h; omega
  | succ f ih =>
    intro m ts h
    cases ts with
    | nil => simp [inputLoop, Within]
    | cons k ts =>
      simp only [List.length_cons] at h ⊢
      unfold inputLoop
      split
      · simp [Within]
      · split
        · trivial
        · dsimp only
          match ts, h with
          | [], _ => trivial
          | c :: ts, h =>
            simp only [List.length_cons] at h ⊢
            split
            · trivial
            · match ts, h with
              | [], _ => trivial
              | v :: ts, h =>
                simp only [List.length_cons] at h ⊢
                split
                · trivial
                · refine Within.bind (n := ts.length) ?_ fun vals r hr => ?_
                  · split
                    · exact parseList_within stof ts []
                    · split
                      · trivial
                      · simp [Within]
                  · match r, hr with
                    | [], _ => exact (ih _ [] (by simp; omega)).mono (by simp)
                    | t :: r, hr =>
                      simp only [List.length_cons] at hr ⊢
                      split
                      · exact (ih _ r (by omega)).mono (by omega)
                      · exact (ih _ (t :: r) (by simp; omega)).mono (by simp; omega)

theorem parseInput_within (ts : List Tok) : Within ts.length (parseInput stof ts) := by
  cases ts with
  | nil => trivial
  | cons t ts =>
    unfold parseInput
    dsimp only
    split
    · trivial
    · exact (inputLoop_within stof (ts.length + 1) _ ts (by omega)).mono (by simp)

theorem parseUsing_within (name label : List Char) (ts : List Tok) :
    Within ts.length (parseUsing stof name label ts) := by
  cases ts with
  | nil => trivial
  | cons u ts =>
    unfold parseUsing
    dsimp only
    split
    · trivial
    · match ts with
      | [] => trivial
      | n :: ts =>
        dsimp only
        split
        · match ts with
          | [] => trivial
          | d :: ts =>
            dsimp only
            split
            · trivial
            · simp only [Within, List.length_cons]; omega
        · split
          · split
            · trivial
            · refine (parseInput_within stof ts).bind fun m r h => ?_
              simp only [Within, List.length_cons]; omega
          · trivial

theorem parseExecute_within (ts : List Tok) : Within ts.length (parseExecute stof ts) := by
  unfold parseExecute
  apply Within.catch
  match ts with
  | [] => trivial
  | t :: ts =>
    dsimp only
    split
    · trivial
    · match ts with
      | [] => trivial
      | name :: ts =>
        dsimp only
        split
        · trivial
        · match ts with
          | [] => trivial
          | w :: ts =>
            dsimp only
            split
            · match ts with
              | [] => trivial
              | l :: ts =>
                dsimp only
                split
                · trivial
                · match ts with
                  | [] => trivial
                  | v :: ts =>
                    dsimp only
                    split
                    · trivial
                    · exact (parseUsing_within stof _ _ ts).mono (by simp; omega)
            · exact (parseUsing_within stof _ _ _).mono (by simp)

theorem parseStatement_within (t : Tok) (ts : List Tok) : Within ts.length (parseStatement stof t ts) := by
  unfold parseStatement
  split
  · simp [Within]
  · split
    · exact (parseHelp_within ts).bind fun a r h => by simpa [Within] using h
    · split
      · exact (parsePrint_within ts).bind fun a r h => by simpa [Within] using h
      · split
        · exact (parseCreate_within ts).bind fun a r h => by simpa [Within] using h
        · split
          · exact (parseExecute_within stof ts).bind fun a r h => by simpa [Within] using h
          · split
            · simp [Within]
            · trivial

theorem parseBlock_within : ∀ (fuel : Nat) (acc : List (Stmt F)) (ts : List Tok), ts.length < fuel →
    Within ts.length (parseBlock stof fuel acc ts) := by
  intro fuel
  induction fuel with
  | zero => intro acc ts h; omega
  | succ f ih =>
    intro acc ts h
    cases ts with
    | nil => simp [parseBlock, Within]
    | cons t ts =>
      simp only [List.length_cons] at h ⊢
      unfold parseBlock
      refine (parseStatement_within stof t ts).bind fun s r hr => ?_
      exact (ih _ r (by omega)).mono (by omega)

/-! ### Steps that do not throw -/

/-- The step did not throw anything. -/
def Calm {α : Type} : R α → Prop
  | .runtimeError => False
  | .logicError => False
  | _ => True

/-- The step did not throw a `logic_error`. -/
def NoLogic {α : Type} : R α → Prop
  | .logicError => False
  | _ => True

theorem NoLogic.catch {α : Type} {x : R α} (h : NoLogic x) : Calm x.catchRuntime := by
  cases x <;> exact h

theorem NoLogic.bind {α β : Type} {x : R α} {f : α → List Tok → R β} (hx : NoLogic x)
    (hf : ∀ a rest, x = .ok a rest → NoLogic (f a rest)) : NoLogic (x.bind f) := by
  cases x with
  | ok a rest => exact hf a rest rfl
  | logicError => exact hx
  | _ => trivial

theorem Calm.bind {α β : Type} {x : R α} {f : α → List Tok → R β} (hx : Calm x)
    (hf : ∀ a rest, x = .ok a rest → Calm (f a rest)) : Calm (x.bind f) := by
  cases x with
  | ok a rest => exact hf a rest rfl
  | logicError => exact hx
  | runtimeError => exact hx
  | _ => trivial

/-- Every number token can be converted by `stof`. -/
def NumbersOk (ts : List Tok) : Prop := ∀ t ∈ ts, t.label = "_number" → (stof t.value).isSome

variable {stof}

theorem tokenValue_some (t : Tok) (h : t.label = "_number" → (stof t.value).isSome) : ∃ v, tokenValue stof t = some v := by
  unfold tokenValue
  by_cases hn : t.label = "_number"
  · obtain ⟨x, hx⟩ := Option.isSome_iff_exists.mp (h hn)
    exact ⟨.num x, by simp [hn, hx]⟩
  · by_cases hs : t.label = "_string"
    · exact ⟨_, by simp [hs]; rfl⟩
    · exact ⟨_, by simp [hn, hs]; rfl⟩

theorem parseList_noLogic (ts : List Tok) (h : NumbersOk stof ts) : ∀ acc, NoLogic (parseList stof acc ts) := by
  induction ts with
  | nil => intro acc; trivial
  | cons t ts ih =>
    intro acc
    have ih := ih (fun x hx => h x (List.mem_cons_of_mem _ hx))
    unfold parseList
    split
    · trivial
    · split
      · exact ih _
      · obtain ⟨v, hv⟩ := tokenValue_some t (h t (by simp))
        rw [hv]; exact ih _

theorem parseList_suffix (ts : List Tok) : ∀ acc vals rest, parseList stof acc ts = .ok vals rest → rest <:+ ts := by
  induction ts with
  | nil => intro acc vals rest h; simp [parseList] at h
  | cons t ts ih =>
    intro acc vals rest h
    unfold parseList at h
    split at h
    · simp only [R.ok.injEq] at h; rw [← h.2]; exact List.suffix_cons t ts
    · split at h
      · exact (ih _ _ _ h).trans (List.suffix_cons t ts)
      · split at h
        · simp at h
        · exact (ih _ _ _ h).trans (List.suffix_cons t ts)

theorem NumbersOk.suffix {ts rest : List Tok} (h : NumbersOk stof ts) (hs : rest <:+ ts) : NumbersOk stof rest :=
  fun x hx => h x (hs.subset hx)

theorem inputLoop_noLogic : ∀ (fuel : Nat) (m : List (List Char × List (Value F))) (ts : List Tok),
    NumbersOk stof ts → NoLogic (inputLoop stof fuel m ts) := by
  intro fuel
  induction fuel with
  | zero => intro m ts h; trivial
  | succ f ih =>
    intro m ts h
    cases ts with
    | nil => trivial
    | cons k ts =>
      unfold inputLoop
      split
      · trivial
      · split
        · trivial
        · dsimp only
          match ts, h with
          | [], _ => trivial
          | c :: ts, h =>
            dsimp only
            split
            · trivial
            · match ts, h with
              | [], _ => trivial
              | v :: ts, h =>
                dsimp only
                have hts : NumbersOk stof ts := fun x hx => h x (by simp [hx])
                split
                · trivial
                · refine NoLogic.bind (hx := ?_) ?_
                  · split
                    · exact parseList_noLogic ts hts []
                    · obtain ⟨x, hx⟩ := tokenValue_some v (h v (by simp))
                      rw [hx]; trivial
                  · intro vals r hr
                    have hr' : NumbersOk stof r := by
                      split at hr
                      · exact hts.suffix (parseList_suffix ts _ _ _ hr)
                      · split at hr
                        · simp at hr
                        · simp only [R.ok.injEq] at hr
                          rw [← hr.2]; exact hts
                    cases r with
                    | nil => exact ih _ _ hr'
                    | cons t r =>
                      dsimp only
                      split
                      · exact ih _ _ (fun x hx => hr' x (by simp [hx]))
                      · exact ih _ _ hr'

theorem parseInput_noLogic (ts : List Tok) (h : NumbersOk stof ts) : NoLogic (parseInput stof ts) := by
  cases ts with
  | nil => trivial
  | cons t ts =>
    unfold parseInput
    dsimp only
    split
    · trivial
    · exact inputLoop_noLogic _ _ ts (fun x hx => h x (by simp [hx]))

theorem parseUsing_noLogic (name label : List Char) (ts : List Tok) (h : NumbersOk stof ts) :
    NoLogic (parseUsing stof name label ts) := by
  cases ts with
  | nil => trivial
  | cons u ts =>
    unfold parseUsing
    dsimp only
    split
    · trivial
    · match ts, h with
      | [], _ => trivial
      | n :: ts, h =>
        dsimp only
        split
        · match ts with
          | [] => trivial
          | d :: ts =>
            dsimp only
            split <;> trivial
        · split
          · split
            · trivial
            · exact (parseInput_noLogic ts (fun x hx => h x (by simp [hx]))).bind fun m r h => trivial
          · trivial

theorem parseExecute_calm (ts : List Tok) (h : NumbersOk stof ts) : Calm (parseExecute stof ts) := by
  unfold parseExecute
  apply NoLogic.catch
  match ts, h with
  | [], _ => trivial
  | t :: ts, h =>
    dsimp only
    split
    · trivial
    · match ts, h with
      | [], _ => trivial
      | name :: ts, h =>
        dsimp only
        split
        · trivial
        · match ts, h with
          | [], _ => trivial
          | w :: ts, h =>
            dsimp only
            split
            · match ts, h with
              | [], _ => trivial
              | l :: ts, h =>
                dsimp only
                split
                · trivial
                · match ts, h with
                  | [], _ => trivial
                  | v :: ts, h =>
                    dsimp only
                    split
                    · trivial
                    · exact parseUsing_noLogic _ _ ts (fun x hx => h x (by simp [hx]))
            · exact parseUsing_noLogic _ _ _ (fun x hx => h x (by
                simp only [List.mem_cons] at hx ⊢; tauto))

/-! ### The rest of the stream is a suffix -/

/-- If the step succeeded, what is left is a suffix of the stream. -/
def Leaves {α : Type} (ts : List Tok) : R α → Prop
  | .ok _ rest => rest <:+ ts
  | _ => True

theorem Leaves.bind {α β : Type} {us ts : List Tok} {x : R α} {f : α → List Tok → R β} (hx : Leaves us x)
    (hf : ∀ a rest, rest <:+ us → Leaves ts (f a rest)) : Leaves ts (x.bind f) := by
  cases x with
  | ok a rest => exact hf a rest hx
  | _ => trivial

theorem Leaves.catch {α : Type} {ts : List Tok} {x : R α} (hx : Leaves ts x) : Leaves ts x.catchRuntime := by
  cases x <;> exact hx

theorem Leaves.mono {α : Type} {us ts : List Tok} {x : R α} (hx : Leaves us x) (h : us <:+ ts) : Leaves ts x := by
  cases x with
  | ok a rest => exact List.IsSuffix.trans hx h
  | _ => trivial

theorem parseList_leaves (ts : List Tok) (acc : List (Value F)) : Leaves ts (parseList stof acc ts) := by
  cases h : parseList stof acc ts with
  | ok vals rest => exact parseList_suffix ts _ _ _ h
  | _ => trivial

theorem inputLoop_leaves : ∀ (fuel : Nat) (m : List (List Char × List (Value F))) (ts : List Tok),
    Leaves ts (inputLoop stof fuel m ts) := by
  intro fuel
  induction fuel with
  | zero => intro m ts; trivial
  | succ f ih =>
    intro m ts
    cases ts with
    | nil => trivial
    | cons k ts =>
      unfold inputLoop
      split
      · exact List.suffix_cons k ts
      · split
        · trivial
        · dsimp only
          match ts with
          | [] => trivial
          | c :: ts =>
            dsimp only
            split
            · trivial
            · match ts with
              | [] => trivial
              | v :: ts =>
                dsimp only
                have hsuf : ts <:+ k :: c :: v :: ts := ⟨[k, c, v], rfl⟩
                split
                · trivial
                · refine Leaves.bind (us := ts) ?_ fun vals r hr => ?_
                  · split
                    · exact parseList_leaves ts []
                    · split
                      · trivial
                      · exact List.suffix_refl ts
                  · cases r with
                    | nil => exact (ih _ _).mono (hr.trans hsuf)
                    | cons t r =>
                      dsimp only
                      split
                      · exact (ih _ _).mono ((List.suffix_cons t r).trans (hr.trans hsuf))
                      · exact (ih _ _).mono (hr.trans hsuf)

theorem parseUsing_leaves (name label : List Char) (ts : List Tok) : Leaves ts (parseUsing stof name label ts) := by
  cases ts with
  | nil => trivial
  | cons u ts =>
    unfold parseUsing
    dsimp only
    split
    · trivial
    · match ts with
      | [] => trivial
      | n :: ts =>
        dsimp only
        split
        · match ts with
          | [] => trivial
          | d :: ts =>
            dsimp only
            split
            · trivial
            · exact ⟨[u, n, d], rfl⟩
        · split
          · split
            · trivial
            · refine Leaves.bind (us := ts) ?_ fun m r hr => hr.trans ⟨[u, n], rfl⟩
              cases ts with
              | nil => trivial
              | cons p ts =>
                unfold parseInput
                dsimp only
                split
                · trivial
                · exact (inputLoop_leaves _ _ ts).mono (List.suffix_cons p ts)
          · trivial

theorem parseExecute_leaves (ts : List Tok) : Leaves ts (parseExecute stof ts) := by
  unfold parseExecute
  apply Leaves.catch
  match ts with
  | [] => trivial
  | t :: ts =>
    dsimp only
    split
    · trivial
    · match ts with
      | [] => trivial
      | name :: ts =>
        dsimp only
        split
        · trivial
        · match ts with
          | [] => trivial
          | w :: ts =>
            dsimp only
            split
            · match ts with
              | [] => trivial
              | l :: ts =>
                dsimp only
                split
                · trivial
                · match ts with
                  | [] => trivial
                  | v :: ts =>
                    dsimp only
                    split
                    · trivial
                    · exact (parseUsing_leaves _ _ ts).mono ⟨[t, name, w, l, v], rfl⟩
            · exact (parseUsing_leaves _ _ _).mono ⟨[t, name], rfl⟩

end Verif.Parser
