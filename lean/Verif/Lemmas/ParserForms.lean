import Verif.Lemmas.Parser
import Verif.Spec.Script
import Mathlib.Tactic.Ring
import Mathlib.Data.List.TakeWhile

/-! Helper lemmas: each documented statement form is parsed to its statement. -/
namespace Verif.Parser
open ScriptSpec

theorem unescape_escape (q : Char) (hq : q ≠ '\\') : ∀ text : List Char, unescapeLoop q (escape q text) = text := by
  intro text
  induction text with
  | nil => rfl
  | cons c t ih =>
    have hcons : escape q (c :: t) = (if c = q then ['\\', q] else [c]) ++ escape q t := by simp [escape]
    rw [hcons]
    by_cases hc : c = q
    · rw [if_pos hc]; simp [unescapeLoop, ih, hc]
    · rw [if_neg hc]
      cases t with
      | nil => simp [escape, unescapeLoop]
      | cons d u =>
        have hd : ∃ e v, escape q (d :: u) = e :: v ∧ e ≠ q := by
          by_cases hd : d = q
          · exact ⟨'\\', q :: escape q u, by simp [escape, hd], Ne.symm hq⟩
          · exact ⟨d, escape q u, by simp [escape, hd], hd⟩
        obtain ⟨e, v, he, heq⟩ := hd
        rw [he] at ih ⊢
        simp only [List.cons_append, List.nil_append]
        rw [unescapeLoop, if_neg (by rintro ⟨-, h⟩; exact heq h), ih]

theorem unescapeString_quote (q : Char) (hq : q ≠ '\\') (text : List Char) : unescapeString (quote q text) = text := by
  have : quote q text = q :: (escape q text ++ [q]) := rfl
  rw [this]
  simp [unescapeString, unescape_escape q hq]

theorem digitsVal_foldl (ds : List Char) : ∀ n, ds.foldl (fun n c => 10 * n + (c.toNat - 48)) n = n * 10 ^ ds.length + decimal ds := by
  induction ds with
  | nil => intro n; simp [decimal]
  | cons c ds ih =>
    intro n
    simp only [List.foldl_cons, ih, List.length_cons, decimal]
    ring

theorem digitsVal_eq (ds : List Char) : digitsVal ds = decimal ds := by
  unfold digitsVal; rw [digitsVal_foldl]; simp

theorem stoi_whole (t : Tok) (n : Nat) (h : Whole t n) : stoi t.value = some n := by
  obtain ⟨-, hne, hd, hn, hlt⟩ := h
  have htw : t.value.takeWhile Char.isDigit = t.value := by
    rw [List.takeWhile_eq_self_iff]; exact hd
  unfold stoi
  rw [htw, if_neg hne, digitsVal_eq, ← hn, if_pos hlt]

theorem nextNumber_whole (t : Tok) (n : Nat) (h : Whole t n) (ts : List Tok) : nextNumber (t :: ts) = .ok n ts := by
  simp [nextNumber, stoi_whole t n h]

/-- What may follow a statement: nothing, or the keyword that starts the next one. -/
def Starts (rest : List Tok) : Prop :=
  rest = [] ∨ ∃ t r, rest = t :: r ∧ t.label ∈ ["_help", "_print", "_create", "_execute", "_exit"] ∧ t.value ≠ "raw".toList

theorem keyword_ne_raw {s : String} {t : Tok} (h : Keyword s t) (hs : s ≠ "raw") : t.value ≠ "raw".toList := by
  intro he
  have := h.2
  rw [he] at this
  apply hs
  have h2 : ("raw".toList).map Char.toLower = "raw".toList := by decide
  rw [h2] at this
  exact (String.toList_inj.mp this).symm

variable {F : Type} {stof : List Char → Option F}

theorem writes_starts {ts : List Tok} {s : Stmt F} (h : Writes stof ts s) (rest : List Tok) : Starts (ts ++ rest) := by
  have hk : ∀ (w : String) (t : Tok) (r : List Tok), Keyword w t → w ≠ "raw" →
      "_" ++ w ∈ ["_help", "_print", "_create", "_execute", "_exit"] → Starts (t :: r) := by
    intro w t r hw hr hm
    exact Or.inr ⟨t, r, rfl, by rw [hw.1]; exact hm, keyword_ne_raw hw hr⟩
  cases h with
  | help h t hh => exact hk "help" _ _ hh (by decide) (by decide)
  | exit e he => exact hk "exit" _ _ he (by decide) (by decide)
  | print p n raw hp => exact hk "print" _ _ hp (by decide) (by decide)
  | printLimit p n l t raw k hp => exact hk "print" _ _ hp (by decide) (by decide)
  | createTask c k type name u d ws goal test hc => exact hk "create" _ _ hc (by decide) (by decide)
  | createDataset c d name u scheme ws path header gs hc => exact hk "create" _ _ hc (by decide) (by decide)
  | executeDataset e k name u d ds ls label he => exact hk "execute" _ _ he (by decide) (by decide)
  | executeInput e k name u i ls ins label m he => exact hk "execute" _ _ he (by decide) (by decide)

theorem taskWith_form {ws : List Tok} {g t g' t' : List Char} (h : TaskWiths ws g t g' t') :
    ∀ (u : Tok) (rest : List Tok), u.label = "_using" → taskWith g t (ws ++ u :: rest) = .ok (g', t') (u :: rest) := by
  induction h with
  | done goal test =>
    intro u rest hu
    simp only [List.nil_append]
    unfold taskWith
    rw [if_neg (by rw [hu]; decide)]
  | goal w v ts g t g' t' hw _ ih =>
    intro u rest hu
    have hl : w.label = "_with" := hw.1
    simp only [List.cons_append]
    rw [taskWith, if_pos hl, if_neg (by decide), if_pos (by decide)]
    exact ih u rest hu
  | test w v ts g t g' t' hw _ ih =>
    intro u rest hu
    have hl : w.label = "_with" := hw.1
    simp only [List.cons_append]
    rw [taskWith, if_pos hl, if_pos (by decide)]
    exact ih u rest hu

theorem parseDims_one (t : Tok) (n : Nat) (h : Whole t n) (rest : List Tok) :
    parseDims (t :: closeParen :: rest) = .ok (1, n, 1) rest := by
  unfold parseDims
  rw [nextNumber_whole t n h]
  rfl

theorem parseDims_two (t u : Tok) (n m : Nat) (h : Whole t n) (hu : Whole u m) (rest : List Tok) :
    parseDims (t :: comma :: u :: closeParen :: rest) = .ok (n, m, 1) rest := by
  unfold parseDims
  rw [nextNumber_whole t n h]
  simp only [R.bind]
  rw [if_neg (by decide), if_neg (by simp [comma]), nextNumber_whole u m hu]
  rfl

theorem parseDims_three (t u v : Tok) (n m k : Nat) (h : Whole t n) (hu : Whole u m) (hv : Whole v k) (rest : List Tok)
    (hr : rest ≠ []) :
    parseDims (t :: comma :: u :: comma :: v :: closeParen :: rest) = .ok (n, m, k) rest := by
  unfold parseDims
  rw [nextNumber_whole t n h]
  simp only [R.bind]
  rw [if_neg (by decide), if_neg (by simp [comma]), nextNumber_whole u m hu]
  simp only [next]
  rw [if_neg (by decide), if_neg (by simp [comma]), nextNumber_whole v k hv]
  exact if_neg (by simp [closeParen, hr])

theorem columnGroup_form {dims : List Tok} {r c k : Nat} (hd : Dims dims (r, c, k)) (id : Nat) (use : List Char)
    (type name at_ start : Tok) (s : Nat) (hat : at_.label = "_at") (hs : Whole start s) (hlt : r * c * k < 2 ^ 64)
    (ts : List Tok) :
    parseColumnGroup id use (type :: name :: dims ++ at_ :: start :: ts) =
      .ok ⟨id, use, type.value, name.value, r, c, k, s, r * c * k⟩ ts := by
  have hparse : ∀ d : Nat × Nat × Nat, d.1 * d.2.1 * d.2.2 < 2 ^ 64 →
      parseAt id use type.value name.value d at_ (start :: ts) =
        .ok ⟨id, use, type.value, name.value, d.1, d.2.1, d.2.2, s, d.1 * d.2.1 * d.2.2⟩ ts := by
    intro d hdlt
    unfold parseAt
    rw [if_neg (by simp [hat]), nextNumber_whole start s hs]
    simp only [R.bind, Nat.mod_eq_of_lt hdlt]
  have hopen : ∀ (ds : List Tok) (d : Nat × Nat × Nat), ds ≠ [] → parseDims (ds ++ at_ :: start :: ts) = .ok d (at_ :: start :: ts) →
      parseColumnGroup id use (type :: name :: (openParen :: ds) ++ at_ :: start :: ts) =
        parseAt id use type.value name.value d at_ (start :: ts) := by
    intro ds d hne h
    simp only [List.cons_append, parseColumnGroup, next, R.bind]
    rw [if_pos ⟨rfl, by simp⟩, h]
  cases hd with
  | none =>
    simp only [List.cons_append, List.nil_append, parseColumnGroup, next, R.bind]
    rw [if_neg (by rw [hat]; rintro ⟨h, -⟩; exact absurd h (by decide))]
    exact hparse (1, 1, 1) hlt
  | one t n ht =>
    rw [hopen [t, closeParen] (1, c, 1) (by simp) (parseDims_one t c ht _)]
    exact hparse (1, c, 1) hlt
  | two t u n m ht hu =>
    rw [hopen [t, comma, u, closeParen] (r, c, 1) (by simp) (parseDims_two t u r c ht hu _)]
    exact hparse (r, c, 1) hlt
  | three t u v n m k' ht hu hv =>
    rw [hopen [t, comma, u, comma, v, closeParen] (r, c, k) (by simp) (parseDims_three t u v r c k ht hu hv _ (by simp))]
    exact hparse (r, c, k) hlt

theorem datasetWith_form {n : Nat} {ws : List Tok} {h : Bool} {gs : List ColGroup} (hw : Withs n ws h gs) :
    ∀ (fuel : Nat) (h0 : Bool) (gs0 : List ColGroup) (u : Tok) (rest : List Tok), gs0.length = n → u.label = "_using" →
      ws.length < fuel →
      datasetWith fuel h0 gs0 (ws ++ u :: rest) = .ok (h0 || h, gs0 ++ gs) (u :: rest) := by
  induction hw with
  | done n =>
    intro fuel h0 gs0 u rest hn hu hf
    cases fuel with
    | zero => simp at hf
    | succ f =>
      simp only [List.nil_append]
      unfold datasetWith
      rw [if_neg (by rw [hu]; decide)]
      simp
  | header n w ts h gs hw _ ih =>
    intro fuel h0 gs0 u rest hn hu hf
    have hl : w.label = "_with" := hw.1
    cases fuel with
    | zero => simp at hf
    | succ f =>
      simp only [List.cons_append]
      rw [datasetWith, if_pos hl, if_pos (by decide), ih f true gs0 u rest hn hu (by simp at hf; omega)]
      simp
  | group n w use type name at_ start dims ts r c k s h gs hw huse hd hat hs hlt _ ih =>
    intro fuel h0 gs0 u rest hn hu hf
    have hl : w.label = "_with" := hw.1
    have hal : at_.label = "_at" := hat.1
    cases fuel with
    | zero => simp at hf
    | succ f =>
      have e : w :: use :: type :: name :: dims ++ at_ :: start :: ts ++ u :: rest =
          w :: use :: (type :: name :: dims ++ at_ :: start :: (ts ++ u :: rest)) := by simp
      rw [e, datasetWith, if_pos hl]
      have hv : use.value = "given".toList ∨ use.value = "expected".toList := by
        rcases huse with rfl | rfl
        · left; rfl
        · right; rfl
      rw [if_neg (by rcases hv with h | h <;> rw [h] <;> decide), if_pos hv.symm,
        columnGroup_form hd _ _ _ _ _ _ s hal hs hlt]
      simp only [R.bind]
      rw [ih f h0 _ u rest (by simp [hn]) hu (by simp at hf; omega)]
      simp [hn]

theorem oneValue_form {t : Tok} {v : Value F} (h : OneValue stof t v) :
    tokenValue stof t = some v ∧ (t.label = "_number" ∨ t.label = "_string" ∨ t.label = "_word") := by
  cases h with
  | number t x hl hx => exact ⟨by simp [tokenValue, hl, hx], Or.inl hl⟩
  | string q text hq => exact ⟨by simp [tokenValue, unescapeString_quote q hq], Or.inr (Or.inl rfl)⟩
  | word t hl => exact ⟨by simp [tokenValue, hl], Or.inr (Or.inr hl)⟩

theorem parseList_form {ts : List Tok} {vs : List (Value F)} (h : Values stof ts vs) :
    ∀ (acc : List (Value F)) (rest : List Tok), parseList stof acc (ts ++ closeBracket :: rest) = .ok (acc ++ vs) rest := by
  have hstep : ∀ (t : Tok) (v : Value F) (acc : List (Value F)) (r : List Tok), OneValue stof t v →
      parseList stof acc (t :: r) = parseList stof (acc ++ [v]) r := by
    intro t v acc r ht
    obtain ⟨h1, h2⟩ := oneValue_form ht
    rw [parseList]
    rw [if_neg (by rcases h2 with h | h | h <;> rw [h] <;> decide),
      if_neg (by rcases h2 with h | h | h <;> rw [h] <;> decide), h1]
  induction h with
  | one t v ht =>
    intro acc rest
    simp only [List.cons_append, List.nil_append]
    rw [hstep t v acc _ ht, parseList, if_pos (by decide)]
  | more t v ts vs ht _ ih =>
    intro acc rest
    simp only [List.cons_append]
    rw [hstep t v acc _ ht, parseList, if_neg (by decide), if_pos (by decide), ih]
    simp

theorem inputValue_form {vts : List Tok} {vs : List (Value F)} (h : InputValue stof vts vs) (rest : List Tok) :
    ∃ v more, vts ++ rest = v :: more ∧
      (v.label = "_string" ∨ v.label = "_word" ∨ v.label = "_number" ∨ v.label = "_open_bracket") ∧
      (if v.label = "_open_bracket" then parseList stof [] more
        else match tokenValue stof v with
          | none => .logicError
          | some x => .ok [x] more) = .ok vs rest := by
  cases h with
  | single t v ht =>
    obtain ⟨h1, h2⟩ := oneValue_form ht
    refine ⟨t, rest, rfl, by tauto, ?_⟩
    rw [if_neg (by rcases h2 with h | h | h <;> rw [h] <;> decide), h1]
  | list ts vs hv =>
    refine ⟨openBracket, ts ++ closeBracket :: rest, by simp, by simp [openBracket], ?_⟩
    rw [if_pos (by decide), parseList_form hv]
    simp

theorem inputKey_form {k : Tok} {key : List Char} (h : InputKey k key) :
    (k.label = "_word" ∨ k.label = "_string") ∧
      Lexer.asLower (if k.label = "_string" then unescapeString k.value else k.value) = key := by
  cases h with
  | word t hl => exact ⟨Or.inl hl, by rw [if_neg (by rw [hl]; decide)]; rfl⟩
  | string q text hq => exact ⟨Or.inr rfl, by rw [if_pos rfl, unescapeString_quote q hq]; rfl⟩

theorem inputLoop_step {k : Tok} {key : List Char} {vts : List Tok} {vs : List (Value F)} (hk : InputKey k key)
    (hv : InputValue stof vts vs) (fuel : Nat) (m : List (List Char × List (Value F))) (rest : List Tok) :
    inputLoop stof (fuel + 1) m (k :: colon :: vts ++ rest) =
      match rest with
      | [] => inputLoop stof fuel (assign key vs m) []
      | t :: ts => if t.label = "_comma" then inputLoop stof fuel (assign key vs m) ts
          else inputLoop stof fuel (assign key vs m) (t :: ts) := by
  obtain ⟨h1, h2⟩ := inputKey_form hk
  obtain ⟨v, more, he, hl, hval⟩ := inputValue_form hv rest
  have e : k :: colon :: vts ++ rest = k :: colon :: v :: more := by simp [← he]
  rw [e]
  conv_lhs => unfold inputLoop
  rw [if_neg (by rcases h1 with h | h <;> rw [h] <;> decide),
    if_neg (by rcases h1 with h | h <;> rw [h] <;> decide)]
  dsimp only
  rw [if_neg (by decide)]
  rw [if_neg (by rcases hl with h | h | h | h <;> rw [h] <;> decide)]
  erw [hval]
  simp only [R.bind, h2]
  cases rest <;> rfl

theorem assign_new {A B : Type} [DecidableEq A] (k : A) (v : B) (m : List (A × B)) (h : k ∉ m.map Prod.fst) :
    assign k v m = m ++ [(k, v)] := by
  induction m with
  | nil => rfl
  | cons p m ih =>
    simp only [List.map_cons, List.mem_cons, not_or] at h
    simp [assign, Ne.symm h.1, ih h.2]

theorem inputLoop_form {ins : List Tok} {m : List (List Char × List (Value F))} (h : Inputs stof ins m) :
    ∀ (fuel : Nat) (m0 : List (List Char × List (Value F))) (rest : List Tok), ins.length < fuel →
      (∀ k ∈ m.map Prod.fst, k ∉ m0.map Prod.fst) →
      inputLoop stof fuel m0 (ins ++ closeParen :: rest) = .ok (m0 ++ m) rest := by
  induction h with
  | one k key vts vs hk hv =>
    intro fuel m0 rest hf hd
    match fuel, hf with
    | f + 2, hf =>
      rw [inputLoop_step hk hv]
      simp only
      rw [if_neg (by decide), inputLoop, if_pos (by decide), assign_new key vs m0 (hd key (by simp))]
    | 1, hf => simp at hf
  | more k key vts vs ts m hk hv _ hnew ih =>
    intro fuel m0 rest hf hd
    match fuel, hf with
    | f + 1, hf =>
      have e : k :: colon :: vts ++ comma :: ts ++ closeParen :: rest =
          k :: colon :: vts ++ (comma :: ts ++ closeParen :: rest) := by simp
      rw [e, inputLoop_step hk hv]
      simp only [List.cons_append]
      rw [if_pos (by decide), assign_new key vs m0 (hd key (by simp)), ih f _ rest (by simp at hf; omega)]
      · simp
      · intro k' hk'
        simp only [List.map_append, List.map_cons, List.map_nil, List.mem_append, List.mem_singleton, not_or]
        refine ⟨hd k' (by simp at hk' ⊢; tauto), ?_⟩
        rintro rfl
        exact hnew hk'

theorem inputLoop_pairs {ins : List Tok} {m : List (List Char × List (Value F))} (h : Pairs stof ins m) :
    ∀ (fuel : Nat) (m0 : List (List Char × List (Value F))) (rest : List Tok), ins.length < fuel →
      inputLoop stof fuel m0 (ins ++ closeParen :: rest) = .ok (m.foldl (fun a p => assign p.1 p.2 a) m0) rest := by
  induction h with
  | one k key vts vs hk hv =>
    intro fuel m0 rest hf
    match fuel, hf with
    | f + 2, hf =>
      rw [inputLoop_step hk hv]
      simp only
      rw [if_neg (by decide), inputLoop, if_pos (by decide)]
      rfl
    | 1, hf => simp at hf
  | more k key vts vs ts m hk hv _ ih =>
    intro fuel m0 rest hf
    match fuel, hf with
    | f + 1, hf =>
      have e : k :: colon :: vts ++ comma :: ts ++ closeParen :: rest =
          k :: colon :: vts ++ (comma :: ts ++ closeParen :: rest) := by simp
      rw [e, inputLoop_step hk hv]
      simp only [List.cons_append]
      rw [if_pos (by decide), ih f _ rest (by simp at hf; omega)]
      rfl

theorem locationPart_in (t : Tok) (h : LocationPart t) : inLocation t = true := by
  unfold LocationPart at h
  unfold inLocation
  simp only [Bool.or_eq_true, List.contains_iff_mem]
  exact Or.inr h

theorem parseLocation_form (scheme : Tok) (path rest : List Tok) (hp : path ≠ []) (hl : ∀ t ∈ path, LocationPart t)
    (hr : Starts rest) :
    parseLocation (scheme :: colon :: slash :: slash :: path ++ rest) =
      .ok (scheme.value ++ "://".toList ++ path.flatMap (·.value)) rest := by
  simp only [List.cons_append]
  rw [parseLocation, if_neg (by simp)]
  simp only [List.drop_succ_cons, List.drop_zero]
  rw [if_neg (by simp [hp])]
  have hall : ∀ t ∈ path, inLocation t = true := fun t ht => locationPart_in t (hl t ht)
  rw [List.takeWhile_append_of_pos hall, List.dropWhile_append_of_pos hall]
  have hrest : rest.takeWhile inLocation = [] ∧ rest.dropWhile inLocation = rest := by
    rcases hr with rfl | ⟨t, r, rfl, hlab, hval⟩
    · simp
    · have : inLocation t = false := by
        unfold inLocation
        simp only [List.mem_cons, List.not_mem_nil, or_false] at hlab
        simp only [hval, decide_false, Bool.false_or]
        rcases hlab with h | h | h | h | h <;> rw [h] <;> decide
      simp [this]
  rw [hrest.1, hrest.2]; simp

theorem starts_limit {rest : List Tok} (h : Starts rest) : ∀ t r, rest = t :: r → t.label ≠ "_limit" := by
  rcases h with rfl | ⟨t, r, rfl, hl, -⟩
  · intro t r h; simp at h
  · intro t' r' he
    simp only [List.cons.injEq] at he
    rw [← he.1]
    simp only [List.mem_cons, List.not_mem_nil, or_false] at hl
    rcases hl with h | h | h | h | h <;> rw [h] <;> decide

theorem using_form {ls : List Tok} {label : List Char} (h : WithLabel ls label) (k name u : Tok) (more : List Tok)
    (hk : k.label = "_task") (hn : name.label = "_word") (hu : u.label = "_using") :
    parseExecute stof (k :: name :: ls ++ u :: more) =
      (parseUsing stof name.value label (u :: more)).catchRuntime := by
  cases h with
  | none =>
    simp only [List.cons_append, List.nil_append, parseExecute]
    simp [hk, hn, hu]
  | label w l v hw hl hv =>
    have h1 : w.label = "_with" := hw.1
    have h2 : l.label = "_label" := hl.1
    have h3 : v.label = "_word" := hv
    simp only [List.cons_append, List.nil_append, parseExecute]
    simp [hk, hn, h1, h2, h3]

/-- Each documented form is parsed to its statement, and the stream is left at the next statement. -/
theorem statement_form {ts : List Tok} {s : Stmt F} (h : Writes stof ts s) (rest : List Tok) (hr : Starts rest) :
    ∃ t more, ts = t :: more ∧ parseStatement stof t (more ++ rest) = .ok (some s) rest := by
  cases h with
  | help h t hh =>
    refine ⟨h, [t], rfl, ?_⟩
    have hl : h.label = "_help" := hh.1
    simp [parseStatement, hl, parseHelp, R.bind]
  | exit e he =>
    refine ⟨e, [], rfl, ?_⟩
    have hl : e.label = "_exit" := he.1
    simp [parseStatement, hl]
  | print p n raw hp =>
    refine ⟨p, [lower (if raw then "raw" else "pretty"), n], rfl, ?_⟩
    have hl : p.label = "_print" := hp.1
    have hlim := starts_limit hr
    rcases hr with rfl | ⟨t, r, rfl, -⟩
    · cases raw <;> simp [parseStatement, hl, parsePrint, lower, next, R.bind]
    · have := hlim t r rfl
      cases raw <;> simp [parseStatement, hl, parsePrint, lower, next, R.bind, this]
  | printLimit p n l t raw k hp hlm hw =>
    refine ⟨p, [lower (if raw then "raw" else "pretty"), n, l, t], rfl, ?_⟩
    have hl : p.label = "_print" := hp.1
    have hl2 : l.label = "_limit" := hlm.1
    cases raw <;> simp [parseStatement, hl, hl2, parsePrint, lower, next, R.bind, nextNumber_whole t k hw]
  | createTask c k type name u d ws goal test hc hk hws hu =>
    refine ⟨c, _, rfl, ?_⟩
    have h1 : c.label = "_create" := hc.1
    have h2 : k.label = "_task" := hk.1
    have h3 : u.label = "_using" := hu.1
    have hne : ∃ x y, ws ++ u :: d :: rest = x :: y := by cases ws <;> simp
    obtain ⟨x, y, hxy⟩ := hne
    have ht := taskWith_form hws u (d :: rest) h3
    have e : k :: type :: name :: ws ++ [u, d] ++ rest = k :: type :: name :: x :: y := by simp [← hxy]
    have hgoal : parseCreateTask (F := F) (type :: name :: x :: y) =
        .ok (.createTask type.value name.value goal d.value test) rest := by
      rw [hxy] at ht
      unfold parseCreateTask
      simp only [ht, R.bind]
      simp [h3, R.catchRuntime]
    have : parseStatement stof c (k :: type :: name :: x :: y) =
        .ok (some (.createTask type.value name.value goal d.value test)) rest := by
      simp only [parseStatement, h1, parseCreate, h2, hgoal, R.bind]
      simp
    rw [← this, ← e]; rfl
  | createDataset c d name u scheme ws path header gs hc hd hn hws hu hp hl =>
    refine ⟨c, _, rfl, ?_⟩
    have h1 : c.label = "_create" := hc.1
    have h2 : d.label = "_dataset" := hd.1
    have h3 : u.label = "_using" := hu.1
    have h4 : name.label = "_word" := hn
    have e : d :: name :: ws ++ u :: scheme :: colon :: slash :: slash :: path ++ rest =
        d :: name :: (ws ++ u :: (scheme :: colon :: slash :: slash :: path ++ rest)) := by simp
    have hgoal : parseCreateDataset (F := F) (name :: (ws ++ u :: (scheme :: colon :: slash :: slash :: path ++ rest))) =
        .ok (.createDataset name.value (scheme.value ++ "://".toList ++ path.flatMap (·.value)) header gs) rest := by
      unfold parseCreateDataset
      dsimp only
      rw [if_neg (by simp [h4]), if_neg (by simp; omega), datasetWith_form hws _ false [] u _ rfl h3 (by simp; omega)]
      simp only [R.bind]
      rw [if_neg (by simp [h3]), parseLocation_form scheme path rest hp hl hr]
      simp [R.catchRuntime]
    have : parseStatement stof c (d :: name :: (ws ++ u :: (scheme :: colon :: slash :: slash :: path ++ rest))) =
        .ok (some (.createDataset name.value (scheme.value ++ "://".toList ++ path.flatMap (·.value)) header gs)) rest := by
      simp only [parseStatement, h1, parseCreate, h2, hgoal, R.bind]
      simp
    rw [← this, ← e]; rfl
  | executeDataset e k name u d ds ls label he hk hn hls hu hd hds =>
    refine ⟨e, _, rfl, ?_⟩
    have h1 : e.label = "_execute" := he.1
    have h2 : k.label = "_task" := hk.1
    have h3 : u.label = "_using" := hu.1
    have h4 : d.label = "_dataset" := hd.1
    have h5 : ds.label = "_word" := hds
    have hx := using_form (stof := stof) hls k name u (d :: ds :: rest) h2 hn h3
    have e' : k :: name :: ls ++ [u, d, ds] ++ rest = k :: name :: ls ++ u :: d :: ds :: rest := by simp
    have hgoal : parseUsing stof name.value label (u :: d :: ds :: rest) = .ok (.execute name.value label ds.value []) rest := by
      simp [parseUsing, h3, h4, h5]
    rw [hgoal] at hx
    have : parseStatement stof e (k :: name :: ls ++ u :: d :: ds :: rest) =
        .ok (some (.execute name.value label ds.value [])) rest := by
      unfold parseStatement
      rw [hx]
      simp [h1, R.catchRuntime, R.bind]
    rw [← this, ← e']; rfl
  | executeInput e k name u i ls ins label m he hk hn hls hu hi hins =>
    refine ⟨e, _, rfl, ?_⟩
    have h1 : e.label = "_execute" := he.1
    have h2 : k.label = "_task" := hk.1
    have h3 : u.label = "_using" := hu.1
    have h4 : i.label = "_input" := hi.1
    have hx := using_form (stof := stof) hls k name u (i :: openParen :: (ins ++ closeParen :: rest)) h2 hn h3
    have e' : k :: name :: ls ++ u :: i :: openParen :: ins ++ [closeParen] ++ rest =
        k :: name :: ls ++ u :: i :: openParen :: (ins ++ closeParen :: rest) := by simp
    have hin : parseInput stof (openParen :: (ins ++ closeParen :: rest)) = .ok m rest := by
      unfold parseInput
      dsimp only
      rw [if_neg (by decide), inputLoop_form hins _ [] rest (by simp; omega) (by simp)]
      simp
    have hgoal : parseUsing stof name.value label (u :: i :: openParen :: (ins ++ closeParen :: rest)) =
        .ok (.execute name.value label [] m) rest := by
      unfold parseUsing
      dsimp only
      rw [if_neg (by simp [h3]), if_neg (by rw [h4]; decide), if_pos h4, if_neg (by simp), hin]
      rfl
    rw [hgoal] at hx
    have : parseStatement stof e (k :: name :: ls ++ u :: i :: openParen :: (ins ++ closeParen :: rest)) =
        .ok (some (.execute name.value label [] m)) rest := by
      unfold parseStatement
      rw [hx]
      simp [h1, R.catchRuntime, R.bind]
    rw [← this, ← e']; rfl

end Verif.Parser
