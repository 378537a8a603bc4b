import Verif.Spec.Training
import Mathlib.Tactic.Linarith
import Mathlib.Tactic.FieldSimp
import Mathlib.Tactic.Ring
import Mathlib.Algebra.CharZero.Defs
import Mathlib.Data.Nat.Cast.Order.Ring

namespace Verif.Training
open Verif.ExitStrategy (Num Limits State)
variable {N R K F : Type} [Field F] [LinearOrder F]

/-- The loss of a batch as the loop computes it. -/
def batchMean (l : List (List (Num F))) : Num F := (total (.fin 0) (l.map recordLoss)).div (.fin (l.length : F))

/-- The epoch's loss as the loop computes it, from the batch number `k` and the loss `e` on. -/
def lossFold (batchSize : Nat) : Nat → Num F → List (List (List (Num F))) → Num F
  | _, e, [] => e
  | k, e, l :: rest =>
    let b := if l.length = batchSize then k + 1 else k
    lossFold batchSize b (e.add (((batchMean l).sub e).div (.fin (b : F)))) rest

omit [LinearOrder F] [Field F] in
theorem feed_length (net : Net N R K F) (c : List R) : ∀ n, (feed net n c).2.length = c.length := by
  induction c with
  | nil => intro n; rfl
  | cons r c ih => intro n; simp [feed, ih]

/-- One batch of the loop. -/
theorem epochLoop_batch (net : Net N R K F) (bs : Nat) (hbs : 1 ≤ bs) (rest : List R) (x : N × Num F) (c : List R) :
    ∀ (n : N) (cur off : Nat) (bl e : Num F), c ≠ [] → off + c.length ≤ bs → (rest = [] ∨ off + c.length = bs) →
      epochLoop net bs n cur off bl e (c ++ rest) = .ok x →
      epochLoop net bs (net.update (feed net n c).1) (cur + c.length) 0 (.fin 0)
        (e.add ((((total bl ((feed net n c).2.map recordLoss)).div (.fin ((off + c.length : Nat) : F))).sub e).div
          (.fin (((cur + c.length) / bs : Nat) : F)))) rest = .ok x := by
  induction c with
  | nil => intro n cur off bl e h; exact absurd rfl h
  | cons r c ih =>
    intro n cur off bl e _ hle hfull h
    rw [List.cons_append, epochLoop] at h
    dsimp only at h
    split at h
    · exact absurd h (by simp)
    rcases c with _ | ⟨r2, c⟩
    · have hcond : off + 1 ≥ bs ∨ ([] ++ rest).isEmpty := by
        rcases hfull with h1 | h1
        · right; simp [h1]
        · left; simp at h1; omega
      rw [if_pos hcond, if_neg (by omega)] at h
      simpa [feed, total] using h
    · rw [if_neg (by
        simp only [List.length_cons] at hle
        simp
        omega)] at h
      have := ih (net.learn n r).1 (cur + 1) (off + 1) _ e (by simp)
        (by simp only [List.length_cons] at hle ⊢; omega) (by
          rcases hfull with h1 | h1
          · exact Or.inl h1
          · right; simp only [List.length_cons] at h1 ⊢; omega) h
      rw [show cur + (r :: r2 :: c).length = cur + 1 + (r2 :: c).length by simp; omega,
        show off + (r :: r2 :: c).length = off + 1 + (r2 :: c).length by simp; omega]
      simpa only [feed, List.map_cons, total, List.foldl_cons] using this

theorem epochLoop_batches (net : Net N R K F) (bs : Nat) (hbs : 1 ≤ bs) (x : N × Num F) (chunks : List (List R)) :
    ∀ (n : N) (k : Nat) (e : Num F) (records : List R), IsBatches bs records chunks →
      epochLoop net bs n (k * bs) 0 (.fin 0) e records = .ok x →
      x.1 = (feedBatches net n chunks).1 ∧ x.2 = lossFold bs k e (feedBatches net n chunks).2 := by
  induction chunks with
  | nil =>
    intro n k e records hb h
    have := hb.all
    simp only [List.flatten_nil] at this
    subst this
    simp only [epochLoop, Out.ok.injEq] at h
    subst h
    exact ⟨rfl, rfl⟩
  | cons c cs ih =>
    intro n k e records hb h
    have hall := hb.all
    simp only [List.flatten_cons] at hall
    subst hall
    have hsmall := hb.small c (by simp)
    have hne := hb.nonempty c (by simp)
    have hfull : cs = [] ∨ c.length = bs := by
      rcases cs with _ | ⟨d, cs⟩
      · exact Or.inl rfl
      · exact Or.inr (hb.full c (by simp [List.dropLast]))
    have h1 := epochLoop_batch net bs hbs cs.flatten x c n (k * bs) 0 (.fin 0) e hne (by omega)
      (by rcases hfull with h | h
          · left; simp [h]
          · right; omega) h
    have hlen : (feed net n c).2.length = c.length := feed_length net c n
    have hcb : (k * bs + c.length) / bs = if (feed net n c).2.length = bs then k + 1 else k := by
      rw [hlen]
      have hpos : 0 < bs := by omega
      split
      · rename_i heq
        rw [heq, ← Nat.succ_mul, Nat.mul_div_cancel _ hpos]
      · rw [Nat.mul_comm, Nat.mul_add_div hpos, Nat.div_eq_of_lt (by omega)]; omega
    have hstep : x.1 = (feedBatches net n (c :: cs)).1 ∧
        x.2 = lossFold bs k e ((feed net n c).2 :: (feedBatches net (net.update (feed net n c).1) cs).2) := by
      rw [Nat.zero_add, hcb] at h1
      rcases hfull with hnil | hfl
      · subst hnil
        simp only [List.flatten_nil, epochLoop, Out.ok.injEq] at h1
        subst h1
        refine ⟨rfl, ?_⟩
        simp only [lossFold, feedBatches, batchMean, hlen]
      · rw [if_pos (by rw [hlen]; exact hfl)] at h1
        rw [show k * bs + c.length = (k + 1) * bs by rw [hfl, Nat.succ_mul]] at h1
        have hb' : IsBatches bs cs.flatten cs :=
          ⟨rfl, fun d hd => hb.nonempty d (List.mem_cons_of_mem _ hd), fun d hd => hb.small d (List.mem_cons_of_mem _ hd), by
            intro d hd
            rcases cs with _ | ⟨a, cs⟩
            · simp at hd
            · exact hb.full d (by rw [List.dropLast_cons_cons]; exact List.mem_cons_of_mem _ hd)⟩
        obtain ⟨h2, h3⟩ := ih _ (k + 1) _ cs.flatten hb' h1
        refine ⟨h2, ?_⟩
        rw [h3]
        simp only [lossFold, batchMean, hlen, hfl, if_true]
    exact hstep

/-- Every list of records can be divided into batches. -/
theorem isBatches_exists (bs : Nat) (hbs : 1 ≤ bs) : ∀ (m : Nat) (records : List R), records.length ≤ m →
    ∃ chunks, IsBatches bs records chunks := by
  intro m
  induction m with
  | zero =>
    intro records h
    have : records = [] := List.length_eq_zero_iff.mp (by omega)
    subst this
    exact ⟨[], rfl, by simp, by simp, by simp⟩
  | succ m ih =>
    intro records h
    rcases Nat.eq_zero_or_pos records.length with h0 | h0
    · have : records = [] := List.length_eq_zero_iff.mp h0
      subst this
      exact ⟨[], rfl, by simp, by simp, by simp⟩
    · obtain ⟨cs, h1, h2, h3, h4⟩ := ih (records.drop bs) (by simp; omega)
      have hne : records.take bs ≠ [] := by
        intro h5
        have := congrArg List.length h5
        rw [List.length_take] at this
        simp only [List.length_nil] at this
        omega
      refine ⟨records.take bs :: cs, by simp [h1], ?_, ?_, ?_⟩
      · intro c hc
        rcases List.mem_cons.mp hc with rfl | hc
        · exact hne
        · exact h2 c hc
      · intro c hc
        rcases List.mem_cons.mp hc with rfl | hc
        · rw [List.length_take]; omega
        · exact h3 c hc
      · intro c hc
        rcases cs with _ | ⟨d, cs⟩
        · simp at hc
        · rw [List.dropLast_cons_cons] at hc
          rcases List.mem_cons.mp hc with rfl | hc
          · have hd := h2 d (by simp)
            have hlen := congrArg List.length h1
            have hdl : 0 < d.length := List.length_pos_iff.mpr hd
            simp at hlen
            simp
            omega
          · exact h4 c hc

/-! Losses that are numbers -/

omit [LinearOrder F] in
theorem total_fin (l : List F) : ∀ x : F, total (.fin x) (l.map .fin) = .fin (x + l.sum) := by
  induction l with
  | nil => intro x; simp [total]
  | cons y l ih =>
    intro x
    have := ih (x + y)
    simp only [total, List.map_cons, List.foldl_cons, Num.add] at this ⊢
    rw [this, List.sum_cons, add_assoc]

theorem div_fin (x y : F) (h : y ≠ 0) : (Num.fin x).div (.fin y) = .fin (x / y) := by simp [Num.div, h]

omit [LinearOrder F] in
theorem sub_fin (x y : F) : (Num.fin x).sub (.fin y) = .fin (x - y) := by simp [Num.sub, Num.neg, Num.add, sub_eq_add_neg]

theorem batchMean_fin [IsStrictOrderedRing F] (l : List (List (Num F))) (x : List F) (hx : l.map recordLoss = x.map .fin)
    (hne : l ≠ []) : batchMean l = .fin (mean x) := by
  have hlen : l.length = x.length := by simpa using congrArg List.length hx
  have hpos : (l.length : F) ≠ 0 := by
    have : 0 < l.length := List.length_pos_iff.mpr hne
    exact_mod_cast this.ne'
  unfold batchMean mean
  rw [hx, total_fin, div_fin _ _ hpos, zero_add, hlen]

/-- The running mean over full batches. -/
theorem lossFold_full [IsStrictOrderedRing F] (bs : Nat) (hbs : 1 ≤ bs) (ls : List (List (List (Num F)))) :
    ∀ (xs : List (List F)) (k : Nat) (e : F), ls.map (List.map recordLoss) = xs.map (List.map .fin) →
      (∀ l ∈ ls, l.length = bs) →
      ∃ y, lossFold bs k (.fin e) ls = .fin y ∧ y * ((k + xs.length : Nat) : F) = e * (k : F) + (xs.map mean).sum := by
  induction ls with
  | nil =>
    intro xs k e h _
    have : xs = [] := List.length_eq_zero_iff.mp (by simpa using (congrArg List.length h).symm)
    subst this
    exact ⟨e, rfl, by simp⟩
  | cons l ls ih =>
    intro xs k e h hf
    rcases xs with _ | ⟨x, xs⟩
    · simp at h
    simp only [List.map_cons, List.cons.injEq] at h
    obtain ⟨h1, h2⟩ := h
    have hl := hf l (by simp)
    have hne : l ≠ [] := by rintro rfl; simp at hl; omega
    have hk : ((k + 1 : Nat) : F) ≠ 0 := by exact_mod_cast (by omega : k + 1 ≠ 0)
    obtain ⟨y, hy1, hy2⟩ := ih xs (k + 1) (e + (mean x - e) / ((k + 1 : Nat) : F)) h2 (fun l hl => hf l (by simp [hl]))
    refine ⟨y, ?_, ?_⟩
    · simp only [lossFold, hl, if_true, batchMean_fin l x h1 hne, sub_fin, div_fin _ _ hk, Num.add]
      exact hy1
    · rw [show k + (x :: xs).length = k + 1 + xs.length by simp; omega, hy2, List.map_cons, List.sum_cons]
      have : (e + (mean x - e) / ((k + 1 : Nat) : F)) * ((k + 1 : Nat) : F) = e * (k : F) + mean x := by
        rw [add_mul, div_mul_cancel₀ _ hk]
        push_cast
        ring
      rw [this]
      ring

end Verif.Training
