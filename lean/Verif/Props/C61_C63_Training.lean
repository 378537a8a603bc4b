import Verif.Lemmas.Training
import Verif.Props.C54_ExitStrategy
import Mathlib.Data.Rat.Init

/-!
C61: every record contributes to exactly one update per epoch, in batches of the requested size.
C62: the reported epoch loss is the mean of the batch losses.
C63: training with the best-retention policy ends with the weights of the lowest test loss.
C85: the time limit covers the whole training.
C86: a network can be trained again.
C87: the reported final loss belongs to the returned weights.
C88: the test loss is the mean over the test records.
-/
namespace Verif.Training
open Verif.ExitStrategy (Num Limits State initial isDone history)
variable {N R K F : Type} [Field F] [LinearOrder F]

/-- C61. An epoch that completes has fed all records in batches of exactly the requested size (except possibly the last), with
one update per batch. -/
theorem C61 (net : Net N R K F) (bs : Nat) (hbs : 1 ≤ bs) (n n' : N) (loss : Num F) (records : List R)
    (h : epoch net bs n records = .ok (n', loss)) :
    (∃ chunks, IsBatches bs records chunks) ∧
    ∀ chunks, IsBatches bs records chunks → n' = (feedBatches net (net.beginEpoch n) chunks).1 := by
  refine ⟨isBatches_exists bs hbs _ records (Nat.le_refl _), ?_⟩
  intro chunks hc
  unfold epoch at h
  have := epochLoop_batches net bs hbs (n', loss) chunks _ 0 (.fin 0) records hc (by simpa using h)
  exact this.1

/-- C61: an epoch only fails if a loss is not a number. -/
theorem C61_completes (net : Net N R K F) (bs : Nat) (hbs : 1 ≤ bs) (n : N) (records : List R)
    (hn : ∀ n r, ((net.learn n r).2.any isNan) = false) : ∃ x, epoch net bs n records = .ok x := by
  unfold epoch
  generalize net.beginEpoch n = n
  generalize (0 : Nat) = cur
  generalize Num.fin (0 : F) = e
  have : ∀ (off : Nat) (n : N) (cur : Nat) (bl e : Num F), ∃ x, epochLoop net bs n cur off bl e records = .ok x := by
    induction records with
    | nil => intro off n cur bl e; exact ⟨_, rfl⟩
    | cons r rest ih =>
      intro off n cur bl e
      rw [epochLoop]
      dsimp only
      rw [hn n r, if_neg (by decide)]
      split
      · rw [if_neg (by omega)]; exact ih _ _ _ _ _
      · exact ih _ _ _ _ _
  exact this _ _ _ _ _

/-- C61: batch sizes that are negative or larger than the dataset are rejected, a batch size of zero is undefined behaviour
(unless output is switched off and there are no records). -/
theorem C61_rejected (net : Net N R K F) (bs : Int) (records : Nat) (silent : Bool) (g : Setting R F) (fuel : Nat) (n : N)
    (s : State F) : (bs < 0 ∨ bs > records → train net bs records silent g fuel n s = .throws) ∧
      (bs = 0 → silent = false → train net bs records silent g fuel n s = .undefined) := by
  constructor
  · intro h; unfold train; rw [if_pos h]
  · rintro rfl rfl
    unfold train
    rw [if_neg (by omega), if_pos ⟨rfl, rfl⟩]

/-- C62 if the batch size divides the number of records: the epoch loss is the mean of the batch losses. Missing: a smaller last
batch, see `C62_violated`. -/
theorem C62_partial [IsStrictOrderedRing F] (net : Net N R K F) (bs : Nat) (hbs : 1 ≤ bs) (n n' : N) (loss : Num F)
    (records : List R) (h : epoch net bs n records = .ok (n', loss)) (hdvd : bs ∣ records.length) (hne : records ≠ [])
    (chunks : List (List R)) (hc : IsBatches bs records chunks) (xs : List (List F))
    (hx : (feedBatches net (net.beginEpoch n) chunks).2.map (List.map recordLoss) = xs.map (List.map .fin)) :
    loss = .fin (mean (xs.map mean)) := by
  unfold epoch at h
  have h2 := (epochLoop_batches net bs hbs (n', loss) chunks _ 0 (.fin 0) records hc (by simpa using h)).2
  have hlen : ∀ (cs : List (List R)) (n : N), (∀ c ∈ cs, c.length = bs) →
      ∀ l ∈ (feedBatches net n cs).2, l.length = bs := by
    intro cs
    induction cs with
    | nil => intro n _ l hl; simp [feedBatches] at hl
    | cons c cs ih =>
      intro n hcs l hl
      simp only [feedBatches, List.mem_cons] at hl
      rcases hl with rfl | hl
      · rw [feed_length]; exact hcs c (by simp)
      · exact ih _ (fun c hc => hcs c (List.mem_cons_of_mem _ hc)) l hl
  have hall : ∀ c ∈ chunks, c.length = bs := by
    intro c hcm
    rcases List.eq_nil_or_concat chunks with h0 | ⟨front, last, h0⟩
    · subst h0; simp at hcm
    · subst h0
      have hfront : ∀ c ∈ front, c.length = bs := fun c hc' => hc.full c (by simpa using hc')
      have hfl : front.flatten.length = bs * front.length := by
        clear hx hcm h2 hc
        induction front with
        | nil => rfl
        | cons a f ih =>
          have h1 := hfront a (by simp)
          have h2 := ih (fun c hc => hfront c (by simp [hc]))
          simp only [List.flatten_cons, List.length_append, h1, h2, List.length_cons]
          rw [Nat.mul_succ]
          omega
      have htot : records.length = bs * front.length + last.length := by
        have := congrArg List.length hc.all
        simp only [List.concat_eq_append, List.flatten_append, List.flatten_cons, List.flatten_nil, List.append_nil,
          List.length_append] at this
        omega
      have hlast : last.length = bs := by
        have h1 := hc.small last (by simp)
        have h2 : 0 < last.length := List.length_pos_iff.mpr (hc.nonempty last (by simp))
        have h3 : bs ∣ last.length := by
          rw [htot] at hdvd
          exact (Nat.dvd_add_right (Nat.dvd_mul_right bs front.length)).mp hdvd
        exact Nat.le_antisymm h1 (Nat.le_of_dvd h2 h3)
      simp only [List.concat_eq_append, List.mem_append, List.mem_singleton] at hcm
      rcases hcm with hcm | rfl
      · exact hfront c hcm
      · exact hlast
  obtain ⟨y, hy1, hy2⟩ := lossFold_full bs hbs _ xs 0 0 hx (hlen chunks _ hall)
  simp only at h2
  rw [h2, hy1]
  congr 1
  have hxlen : xs.length ≠ 0 := by
    have h3 := congrArg List.length hx
    simp only [List.length_map] at h3
    have h4 : ∀ (cs : List (List R)) (n : N), (feedBatches net n cs).2.length = cs.length := by
      intro cs
      induction cs with
      | nil => intro n; rfl
      | cons c cs ih => intro n; simp [feedBatches, ih]
    rw [h4] at h3
    rw [← h3]
    intro h5
    have := List.length_eq_zero_iff.mp h5
    subst this
    exact hne hc.all.symm
  have hc0 : ((0 + xs.length : Nat) : F) ≠ 0 := by rw [Nat.zero_add]; exact_mod_cast hxlen
  have : y = (xs.map mean).sum / ((0 + xs.length : Nat) : F) := by
    rw [eq_div_iff hc0, hy2]; simp
  rw [this]
  simp [mean]

/-- A network for the examples: its state is the list of the losses that the coming records will have. Weights are the number of
updates. -/
def scripted : Net (List ℚ × Nat) Nat Nat ℚ where
  beginEpoch n := n
  learn n _ := match n with
    | (x :: rest, w) => ((rest, w), [.fin x])
    | ([], w) => (([], w), [.nan])
  update n := (n.1, n.2 + 1)
  losses n _ := [.fin (n.2 : ℚ)]
  snapshot n := n.2
  restore n k := (n.1, k)

/-- The hypotheses of `C62_partial` for four records in two batches. -/
example : (∃ n', epoch scripted 2 ([1, 3, 5, 7], 0) [10, 11, 12, 13] = .ok (n', .fin 4)) ∧
    IsBatches 2 [10, 11, 12, 13] [[10, 11], [12, 13]] ∧
    (feedBatches scripted ([1, 3, 5, 7], 0) [[10, 11], [12, 13]]).2.map (List.map recordLoss) =
      [[1, 3], [5, 7]].map (List.map .fin) :=
  ⟨⟨([], 2), by decide +kernel⟩, ⟨rfl, by decide, by decide, by decide⟩, by decide +kernel⟩

/-- C62 is violated when the last batch is smaller: with three records and batches of two, only the last record counts. The batch
losses are 3 and 30, but the epoch's loss is 30. -/
theorem C62_violated :
    epoch scripted 2 ([1, 5, 30], 0) [0, 1, 2] = .ok (([], 2), .fin 30) ∧
    IsBatches 2 [0, 1, 2] [[0, 1], [2]] ∧
    (feedBatches scripted ([1, 5, 30], 0) [[0, 1], [2]]).2.map (List.map recordLoss) = [[1, 5], [30]].map (List.map .fin) ∧
    mean ([[1, 5], [30]].map mean) = (33 / 2 : ℚ) :=
  ⟨by decide +kernel, ⟨rfl, by decide, by decide, by decide⟩, by decide +kernel, by decide +kernel⟩

/-- C88. The test loss is the mean of the records' losses. -/
theorem C88 [IsStrictOrderedRing F] (net : Net N R K F) (n : N) (records : List R) (hne : records ≠ []) (xs : List F)
    (hx : records.map (fun r => recordLoss (net.losses n r)) = xs.map .fin) : test net n records = .fin (mean xs) := by
  have key : ∀ (records : List R) (xs : List F) (k : Nat) (a : F),
      records.map (fun r => recordLoss (net.losses n r)) = xs.map .fin →
      ∃ y, testLoop net n k (.fin a) records = .fin y ∧ y * ((k + xs.length : Nat) : F) = a * (k : F) + xs.sum := by
    intro records
    induction records with
    | nil =>
      intro xs k a h
      have : xs = [] := List.length_eq_zero_iff.mp (by simpa using (congrArg List.length h).symm)
      subst this
      exact ⟨a, rfl, by simp⟩
    | cons r rest ih =>
      intro xs k a h
      rcases xs with _ | ⟨x, xs⟩
      · simp at h
      simp only [List.map_cons, List.cons.injEq] at h
      have hk : ((k + 1 : Nat) : F) ≠ 0 := by exact_mod_cast (by omega : k + 1 ≠ 0)
      obtain ⟨y, hy1, hy2⟩ := ih xs (k + 1) (a + (x - a) / ((k + 1 : Nat) : F)) h.2
      refine ⟨y, ?_, ?_⟩
      · rw [testLoop, h.1, sub_fin, div_fin _ _ hk]; exact hy1
      · rw [show k + (x :: xs).length = k + 1 + xs.length by simp; omega, hy2, List.sum_cons]
        have : (a + (x - a) / ((k + 1 : Nat) : F)) * ((k + 1 : Nat) : F) = a * (k : F) + x := by
          rw [add_mul, div_mul_cancel₀ _ hk]
          push_cast
          ring
        rw [this]
        ring
  obtain ⟨y, hy1, hy2⟩ := key records xs 0 0 hx
  have hlen : xs.length ≠ 0 := by
    have := congrArg List.length hx
    simp only [List.length_map] at this
    rw [← this]
    exact fun h => hne (List.length_eq_zero_iff.mp h)
  have hc0 : ((0 + xs.length : Nat) : F) ≠ 0 := by rw [Nat.zero_add]; exact_mod_cast hlen
  unfold test
  rw [hy1]
  congr 1
  have : y = xs.sum / ((0 + xs.length : Nat) : F) := by
    rw [eq_div_iff hc0, hy2]; simp
  rw [this]
  simp [mean]

/-! The epochs of a training -/

/-- The network before epoch `e`, if all epochs before completed. -/
def states (net : Net N R K F) (bs : Nat) (g : Setting R F) (n0 : N) : Nat → Option N
  | 0 => some n0
  | e + 1 =>
    match states net bs g n0 e with
    | none => none
    | some n =>
      match epoch net bs n (g.order e) with
      | .ok (n', _) => some n'
      | _ => none

/-- The loss that epoch `e` is judged by: that of the test records if there are any, otherwise that of the training. -/
def lossAt (net : Net N R K F) (bs : Nat) (g : Setting R F) (n0 : N) (e : Nat) : Option (Num F) :=
  match states net bs g n0 e with
  | none => none
  | some n =>
    match epoch net bs n (g.order e) with
    | .ok (n', l) => some (match g.tests with
      | [] => l
      | t :: ts => test net n' (t :: ts))
    | _ => none

theorem judge_eq (net : Net N R K F) (tests : List R) (n : N) (l : Num F) :
    judge net tests n l = match tests with
      | [] => l
      | t :: ts => test net n (t :: ts) := by
  cases tests <;> simp [judge]

/-- Epoch `b` is the earliest of the first `e` epochs with the lowest loss, `y`, and left the network in state `nb`. -/
def IsBest (net : Net N R K F) (bs : Nat) (g : Setting R F) (n0 : N) (e b : Nat) (y : Num F) (nb : N) : Prop :=
  b < e ∧ states net bs g n0 (b + 1) = some nb ∧ lossAt net bs g n0 b = some y ∧ y.lt (.inf false) = true ∧
    (∀ j z, j < e → lossAt net bs g n0 j = some z → z.lt y = false) ∧
    (∀ j z, j < b → lossAt net bs g n0 j = some z → z = .nan ∨ y.lt z = true)

omit [Field F] in
theorem lt_trans' (a b c : Num F) (h1 : a.lt b = true) (h2 : b.lt c = true) : a.lt c = true := by
  rcases a with a | ⟨⟨⟩⟩ | _ <;> rcases b with b | ⟨⟨⟩⟩ | _ <;> rcases c with c | ⟨⟨⟩⟩ | _ <;>
    simp_all [Num.lt]
  exact lt_trans h1 h2

omit [Field F] in
theorem lt_connex (a b : Num F) (h : a.lt b = false) : a = .nan ∨ b = .nan ∨ b.lt a = true ∨ a = b := by
  rcases a with a | ⟨⟨⟩⟩ | _ <;> rcases b with b | ⟨⟨⟩⟩ | _ <;> simp_all [Num.lt]
  rcases lt_or_eq_of_le h with h | h
  · exact Or.inl h
  · exact Or.inr h.symm

omit [Field F] in
theorem lt_irrefl' (a : Num F) : a.lt a = false := by
  rcases a with a | ⟨⟨⟩⟩ | _ <;> simp [Num.lt]

omit [Field F] in
theorem lt_nan (a : Num F) : a.lt .nan = false := by rcases a with a | ⟨⟨⟩⟩ | _ <;> rfl

omit [Field F] in
theorem nan_lt (a : Num F) : Num.nan.lt a = false := by rcases a with a | ⟨⟨⟩⟩ | _ <;> rfl

/-- What the loop knows before epoch `e`. -/
def Inv (net : Net N R K F) (bs : Nat) (g : Setting R F) (n0 : N) (e : Nat) (lowest : Num F) (cp : Option K) (fl : Num F)
    (fe : Nat) : Prop :=
  (lowest = .inf false ∧ cp = none ∧ fl = .inf false ∧
    ∀ j z, j < e → lossAt net bs g n0 j = some z → z.lt (.inf false) = false) ∨
  ∃ b nb, IsBest net bs g n0 e b lowest nb ∧ (g.keepBest = true → cp = some (net.snapshot nb)) ∧ fl = lowest ∧ fe = b

/-- One epoch keeps the invariant. -/
theorem inv_step (net : Net N R K F) (bs : Nat) (g : Setting R F) (n0 n n' : N) (e : Nat) (l lowest : Num F) (cp : Option K)
    (fl : Num F) (fe : Nat) (hst : states net bs g n0 e = some n) (hep : epoch net bs n (g.order e) = .ok (n', l))
    (h : Inv net bs g n0 e lowest cp fl fe) :
    let y := judge net g.tests n' l
    let better := y.lt lowest
    let lowest' := if better then y else lowest
    let reported := better && lowest'.lt fl
    Inv net bs g n0 (e + 1) lowest' (if better && g.keepBest then some (net.snapshot n') else cp)
      (if reported then lowest' else fl) (if reported then e else fe) := by
  intro y better lowest' reported
  have hst' : states net bs g n0 (e + 1) = some n' := by simp [states, hst, hep]
  have hloss : lossAt net bs g n0 e = some y := by simp only [lossAt, hst, hep, y, judge_eq]
  cases hb : better with
  | false =>
    have hl : lowest' = lowest := by simp [lowest', hb]
    have hr : reported = false := by simp [reported, hb]
    rw [hr]
    simp only [Bool.false_and, Bool.false_eq_true, if_false]
    rw [hl]
    rcases h with ⟨h1, h2, h3, h4⟩ | ⟨b, nb, ⟨hb1, hb2, hb3, hb4, hb5, hb6⟩, h2, h3, h4⟩
    · refine Or.inl ⟨h1, h2, h3, ?_⟩
      intro j z hj hz
      rcases Nat.lt_succ_iff_lt_or_eq.mp hj with hj | rfl
      · exact h4 j z hj hz
      · rw [hloss] at hz
        simp only [Option.some.injEq] at hz
        rw [← hz, ← h1]; exact hb
    · refine Or.inr ⟨b, nb, ⟨by omega, hb2, hb3, hb4, ?_, hb6⟩, h2, h3, h4⟩
      intro j z hj hz
      rcases Nat.lt_succ_iff_lt_or_eq.mp hj with hj | rfl
      · exact hb5 j z hj hz
      · rw [hloss] at hz
        simp only [Option.some.injEq] at hz
        rw [← hz]; exact hb
  | true =>
    have hl : lowest' = y := by simp [lowest', hb]
    have hb' : y.lt lowest = true := hb
    have hr : reported = true := by
      have : y.lt fl = true := by
        rcases h with ⟨h1, h2, h3, h4⟩ | ⟨b, nb, _, h2, h3, h4⟩
        · rw [h3, ← h1]; exact hb'
        · rw [h3]; exact hb'
      simp [reported, hb, hl, this]
    rw [hr, hl]
    simp only [Bool.true_and, if_true]
    have hinf : y.lt (.inf false) = true := by
      rcases h with ⟨h1, h2, h3, h4⟩ | ⟨b, nb, ⟨hb1, hb2, hb3, hb4, hb5, hb6⟩, h2, h3, h4⟩
      · rw [← h1]; exact hb'
      · exact lt_trans' y lowest _ hb' hb4
    have hold : ∀ j z, j < e → lossAt net bs g n0 j = some z → z.lt lowest = false := by
      intro j z hj hz
      rcases h with ⟨h1, h2, h3, h4⟩ | ⟨b, nb, ⟨hb1, hb2, hb3, hb4, hb5, hb6⟩, h2, h3, h4⟩
      · rw [h1]; exact h4 j z hj hz
      · exact hb5 j z hj hz
    have hlow : lowest ≠ .nan := by
      intro h0; rw [h0, lt_nan] at hb'; exact absurd hb' (by decide)
    have hbefore : ∀ j z, j < e → lossAt net bs g n0 j = some z → z = .nan ∨ y.lt z = true := by
      intro j z hj hz
      rcases lt_connex z lowest (hold j z hj hz) with h1 | h1 | h1 | h1
      · exact Or.inl h1
      · exact absurd h1 hlow
      · exact Or.inr (lt_trans' y lowest z hb' h1)
      · rw [h1]; exact Or.inr hb'
    refine Or.inr ⟨e, n', ⟨by omega, hst', hloss, hinf, ?_, hbefore⟩, ?_, rfl, rfl⟩
    · intro j z hj hz
      rcases Nat.lt_succ_iff_lt_or_eq.mp hj with hj | rfl
      · rcases hbefore j z hj hz with h1 | h1
        · rw [h1, nan_lt]
        · by_contra hcon
          rw [Bool.not_eq_false] at hcon
          have := lt_trans' y z y h1 hcon
          rw [lt_irrefl'] at this
          exact absurd this (by decide)
      · rw [hloss] at hz
        simp only [Option.some.injEq] at hz
        rw [← hz, lt_irrefl']
    · intro hk
      rw [if_pos hk]

/-- What a finished training leaves behind. -/
theorem trainLoop_ok (net : Net N R K F) (bs : Nat) (g : Setting R F) (n0 : N) (res : Result N F) (fuel : Nat) :
    ∀ (e : Nat) (n : N) (s : State F) (timer : Int) (lowest : Num F) (cp : Option K) (fl : Num F) (fe : Nat),
      states net bs g n0 e = some n → Inv net bs g n0 e lowest cp fl fe →
      trainLoop net bs g fuel e n s timer lowest cp fl fe = .ok res →
      ∃ m n' lowest' cp' fl' fe', e < m ∧ states net bs g n0 m = some n' ∧ Inv net bs g n0 m lowest' cp' fl' fe' ∧
        res.finalTestLoss = fl' ∧ res.epochs = fe' ∧
        (g.keepBest = true → ∃ k, cp' = some k ∧ res.net = net.restore n' k) ∧ (g.keepBest = false → res.net = n') := by
  induction fuel with
  | zero => intro e n s timer lowest cp fl fe _ _ h; simp [trainLoop] at h
  | succ fuel ih =>
    intro e n s timer lowest cp fl fe hst hinv h
    rw [trainLoop] at h
    split at h
    · exact absurd h (by simp)
    · exact absurd h (by simp)
    · exact absurd h (by simp)
    rename_i n' l hep
    have hinv' := inv_step net bs g n0 n n' e l lowest cp fl fe hst hep hinv
    have hst' : states net bs g n0 (e + 1) = some n' := by simp [states, hst, hep]
    dsimp only [getMilliseconds] at h
    dsimp only at hinv'
    split at h
    · exact absurd h (by simp)
    · obtain ⟨m, n2, lo, cp', fl', fe', h1, h2⟩ := ih _ _ _ _ _ _ _ _ hst' hinv' h
      exact ⟨m, n2, lo, cp', fl', fe', by omega, h2⟩
    · refine ⟨e + 1, n', _, _, _, _, by omega, hst', hinv', ?_⟩
      cases hk : g.keepBest with
      | true =>
        rw [hk, if_pos rfl] at h
        split at h
        · exact absurd h (by simp)
        · rename_i k hkk
          simp only [Out.ok.injEq] at h
          subst h
          exact ⟨rfl, rfl, fun _ => ⟨k, hkk, rfl⟩, fun h => absurd h (by simp)⟩
      | false =>
        rw [hk, if_neg (by simp)] at h
        simp only [Out.ok.injEq] at h
        subst h
        exact ⟨rfl, rfl, fun h => absurd h (by simp), fun _ => rfl⟩

/-- C63. After a training with the best-retention policy that ran `m` epochs, the weights are those after the earliest epoch with
the lowest loss, and this loss and epoch are reported. -/
theorem C63 (net : Net N R K F) (hsave : ∀ n k, net.snapshot (net.restore n k) = k) (bs : Int) (records : Nat) (silent : Bool)
    (g : Setting R F) (hg : g.keepBest = true) (fuel : Nat) (n0 : N) (s : State F) (res : Result N F)
    (h : train net bs records silent g fuel n0 s = .ok res) :
    ∃ m b y nb, 1 ≤ m ∧ (∃ n', states net bs.toNat g n0 m = some n') ∧ IsBest net bs.toNat g n0 m b y nb ∧
      net.snapshot res.net = net.snapshot nb ∧ res.finalTestLoss = y ∧ res.epochs = b := by
  unfold train at h
  split at h
  · exact absurd h (by simp)
  split at h
  · exact absurd h (by simp)
  obtain ⟨m, n', lo, cp', fl', fe', h1, h2, h3, h4, h5, h6, h7⟩ :=
    trainLoop_ok net bs.toNat g n0 res fuel 0 n0 s 0 _ none _ 0 rfl (Or.inl ⟨rfl, rfl, rfl, by simp⟩) h
  obtain ⟨k, hk1, hk2⟩ := h6 hg
  rcases h3 with ⟨_, hnone, _⟩ | ⟨b, nb, hb, hcp, hfl, hfe⟩
  · rw [hk1] at hnone; exact absurd hnone (by simp)
  · refine ⟨m, b, lo, nb, by omega, ⟨n', h2⟩, hb, ?_, by rw [h4, hfl], by rw [h5, hfe]⟩
    rw [hk2, hsave]
    have := hcp hg
    rw [hk1] at this
    simpa using this

/-- A training for the examples: one record per epoch, judged by the losses of the script; the time is the same for every epoch. -/
def setting (keepBest : Bool) (limits : Limits ℚ) (ms : Int) : Setting Nat ℚ :=
  ⟨fun _ => [0], [], limits, keepBest, fun e => ms * (e + 1)⟩

/-- At most `epochs` epochs, at most 100 ms, no other limit that matters. -/
def limits (epochs : Nat) : Limits ℚ := ⟨100, 100, epochs, .fin 0, .fin 0, 1, .fin 100⟩

example : ∃ res, train scripted 1 1 true (setting true (limits 4) 1) 10 ([5, 2, 3, 2], 0) initial = .ok res ∧
    res.net.2 = 2 ∧ res.finalTestLoss = .fin 2 ∧ res.epochs = 1 :=
  ⟨⟨([], 2), ⟨.fin 2, 4⟩, .fin 2, 1⟩, by decide +kernel, rfl, rfl, rfl⟩

/-- C87 for the best-retention policy: the reported loss is the one of the epoch whose weights are returned. Missing: the other
policy, see `C87_violated`. -/
theorem C87_partial (net : Net N R K F) (hsave : ∀ n k, net.snapshot (net.restore n k) = k) (bs : Int) (records : Nat)
    (silent : Bool) (g : Setting R F) (hg : g.keepBest = true) (fuel : Nat) (n0 : N) (s : State F) (res : Result N F)
    (h : train net bs records silent g fuel n0 s = .ok res) :
    ∃ b nb, states net bs.toNat g n0 (b + 1) = some nb ∧ net.snapshot res.net = net.snapshot nb ∧
      lossAt net bs.toNat g n0 b = some res.finalTestLoss := by
  obtain ⟨m, b, y, nb, _, _, hb, h1, h2, h3⟩ := C63 net hsave bs records silent g hg fuel n0 s res h
  exact ⟨b, nb, hb.2.1, h1, by rw [h2]; exact hb.2.2.1⟩

/-- C87 is violated when the last weights are kept: the reported loss is the lowest one, not that of the returned weights. -/
theorem C87_violated :
    train scripted 1 1 true (setting false (limits 3) 1) 10 ([5, 2, 3], 0) initial = .ok ⟨([], 3), ⟨.fin 2, 2⟩, .fin 2, 1⟩ ∧
    lossAt scripted 1 (setting false (limits 3) 1) ([5, 2, 3], 0) 2 = some (.fin 3) ∧
    states scripted 1 (setting false (limits 3) 1) ([5, 2, 3], 0) 3 = some ([], 3) := by
  refine ⟨by decide +kernel, by decide +kernel, by decide +kernel⟩

/-- The time that the exit strategy is told at the end of epoch `e`. -/
def told (g : Setting R F) : Nat → Int
  | 0 => g.clock 0
  | e + 1 => g.clock (e + 1) - g.clock e

/-- C85 for one epoch: when a single epoch takes at least the time limit, the strategy answers that training is done (after the
minimum number of epochs). Missing: the time of several epochs together, see `C85_violated`. -/
theorem C85_partial (g : Setting R F) (e : Nat) (losses : List (Num F)) (hlen : losses.length = e) (s : State F)
    (hs : ExitStrategy.Reached g.limits losses s) (loss : Num F) (hmin : g.limits.minEpochs ≤ e + 1)
    (htime : g.limits.maxElapsedTime ≤ told g e) :
    ∃ s', isDone g.limits s (e + 1) loss (told g e) = some (true, s') := by
  obtain ⟨d, s', h1, _, h3⟩ := ExitStrategy.C54 g.limits losses s hs loss (told g e)
  rw [hlen] at h1 h3
  have := h3 hmin (Or.inr (Or.inl htime))
  subst this
  exact ⟨s', h1⟩

/-- C85 is violated: with a limit of 100 ms and epochs of 60 ms, ten epochs are trained, although the time was up after two. -/
theorem C85_violated :
    (∃ res, train scripted 1 1 true (setting false (limits 10) 60) 20 ([10, 9, 8, 7, 6, 5, 4, 3, 2, 1], 0) initial = .ok res ∧
      res.net.2 = 10) ∧
    (setting false (limits 10) 60).clock 1 = 120 ∧ (limits 10).maxElapsedTime = 100 := by
  refine ⟨⟨⟨([], 10), ⟨.fin 1, 10⟩, .fin 1, 9⟩, by decide +kernel, rfl⟩, rfl, rfl⟩

/-- C86 for a network whose strategy was not used yet: training throws only if a loss is not a number or if no checkpoint was
written. Missing: a strategy that was used, see `C86_violated`. -/
theorem C86_partial (net : Net N R K F) (bs : Nat) (g : Setting R F) (n0 : N) (fuel : Nat) :
    ∀ (e : Nat) (n : N) (s : State F) (timer : Int) (lowest : Num F) (cp : Option K) (fl : Num F) (fe : Nat),
      states net bs g n0 e = some n → Inv net bs g n0 e lowest cp fl fe → s.lowestLossEpoch ≤ e + 1 →
      trainLoop net bs g fuel e n s timer lowest cp fl fe = .throws →
      (∃ j nj, states net bs g n0 j = some nj ∧ epoch net bs nj (g.order j) = .throws) ∨
        (g.keepBest = true ∧ ∃ m, e < m ∧ ∀ j z, j < m → lossAt net bs g n0 j = some z → z.lt (.inf false) = false) := by
  induction fuel with
  | zero => intro e n s timer lowest cp fl fe _ _ _ h; simp [trainLoop] at h
  | succ fuel ih =>
    intro e n s timer lowest cp fl fe hst hinv hle h
    rw [trainLoop] at h
    split at h
    · exact Or.inl ⟨e, n, hst, ‹_›⟩
    · exact absurd h (by simp)
    · exact absurd h (by simp)
    rename_i n' l hep
    have hinv' := inv_step net bs g n0 n n' e l lowest cp fl fe hst hep hinv
    have hst' : states net bs g n0 (e + 1) = some n' := by simp [states, hst, hep]
    dsimp only [getMilliseconds] at h
    dsimp only at hinv'
    obtain ⟨s', hs'⟩ := ExitStrategy.record_some g.limits s (e + 1) (judge net g.tests n' l) hle
    have hep' := ExitStrategy.record_epoch g.limits s s' _ _ hs'
    split at h
    · rename_i hd
      unfold isDone at hd
      rw [hs'] at hd
      exact absurd hd (by simp)
    · rename_i s2 hd
      have : s2 = s' := by
        unfold isDone at hd
        rw [hs'] at hd
        simp only [Option.some.injEq, Prod.mk.injEq] at hd
        exact hd.2.symm
      rcases ih _ _ _ _ _ _ _ _ hst' hinv' (by rw [this]; omega) h with h1 | ⟨h1, m, h2, h3⟩
      · exact Or.inl h1
      · exact Or.inr ⟨h1, m, by omega, h3⟩
    · cases hk : g.keepBest with
      | false => rw [hk] at h; simp at h
      | true =>
        rw [hk, if_pos rfl] at h
        split at h
        · rename_i hcp
          rw [hk] at hinv'
          rcases hinv' with ⟨_, _, _, h4⟩ | ⟨b, nb, _, hcp', _⟩
          · exact Or.inr ⟨rfl, e + 1, by omega, h4⟩
          · rw [hcp' hk] at hcp; exact absurd hcp (by simp)
        · exact absurd h (by simp)

/-- C86 is violated: a network is trained twice; the second training throws after its first epoch. -/
theorem C86_violated :
    ∃ res, train scripted 1 1 true (setting false (limits 3) 1) 10 ([5, 4, 3, 4, 3, 2], 0) initial = .ok res ∧
      train scripted 1 1 true (setting false (limits 3) 1) 10 res.net res.exit = .throws ∧
      ∃ res', train scripted 1 1 true (setting false (limits 3) 1) 10 res.net initial = .ok res' := by
  refine ⟨⟨([4, 3, 2], 3), ⟨.fin 3, 3⟩, .fin 3, 2⟩, by decide +kernel, by decide +kernel,
    ⟨([], 6), ⟨.fin 2, 3⟩, .fin 2, 2⟩, by decide +kernel⟩

end Verif.Training
