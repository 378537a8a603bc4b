import Verif.Model.LinearModel
import Verif.Model.ChainTraining
import Verif.Lemmas.Regression
import Verif.Props.C92_Batch
import Verif.Props.C61_C63_Training
import Mathlib.Topology.Algebra.InfiniteSum.Real

/-!
C125. Training a linear model with the mean squared error and mini-batch gradient descent approaches the least-squares fit. Exact real
arithmetic.
-/
namespace Verif.Regression
open Verif Views Calculus Layers

/-! ### Lemmas: the network -/

theorem line_predict (wid bid : Nat) (s : Option ℝ) (useBias : Bool) {n m : Nat} {w b x : Tensor ℝ} (hw : Matrix n m w) (hb : Matrix 1 m b)
    (hx : Matrix 1 n x) :
    ∃ y, predict (line wid bid s useBias w b) x = some y ∧ Matrix 1 m y ∧ ∀ c, y.get 0 c 0 = output useBias w b x c := by
  have h1 := matmul_some (a := x) (b := w) (hx.2.1.trans hw.1.symm) (hx.2.2.trans hw.2.2.symm)
  cases useBias with
  | false =>
    refine ⟨⟨x.rows, w.cols, x.chans, fun r c k => ∑ i ∈ Finset.range x.cols, x.get r i k * w.get i c k⟩, ?_, ?_, ?_⟩
    · simp only [predict, forwardAll, line, Layer.forward, Dense.forward, h1, Option.map_some, Option.bind_some, Bool.false_eq_true, if_false]
      rfl
    · exact ⟨hx.1, hw.2.1, hx.2.2⟩
    · intro c
      show ∑ j ∈ Finset.range x.cols, _ = ∑ j ∈ Finset.range w.rows, _ + 0
      rw [hx.2.1, hw.1, add_zero]
  | true =>
    have h2 := add_some (a := ⟨x.rows, w.cols, x.chans, fun r c k => ∑ i ∈ Finset.range x.cols, x.get r i k * w.get i c k⟩) (b := b)
      ⟨hx.1.trans hb.1.symm, hw.2.1.trans hb.2.1.symm, hx.2.2.trans hb.2.2.symm⟩
    refine ⟨⟨x.rows, w.cols, x.chans, fun r c k => ∑ i ∈ Finset.range x.cols, x.get r i k * w.get i c k + b.get r c k⟩, ?_, ?_, ?_⟩
    · simp only [predict, forwardAll, line, Layer.forward, Dense.forward, Bias.forward, h1, h2, Option.map_some, Option.bind_some, if_true]
      rfl
    · exact ⟨hx.1, hw.2.1, hx.2.2⟩
    · intro c
      show ∑ j ∈ Finset.range x.cols, _ + _ = ∑ j ∈ Finset.range w.rows, _ + b.get 0 c 0
      rw [hx.2.1, hw.1]

theorem line_regular (wid bid : Nat) (s : Option ℝ) (useBias : Bool) (w b x : Tensor ℝ) : Regular (line wid bid s useBias w b) x := by
  cases useBias <;> simp [line, Regular, Layer.RegularAt]

theorem line_ready (wid bid : Nat) (s : Option ℝ) (useBias : Bool) (w b : Tensor ℝ) :
    Ready (line wid bid s useBias w b) ∧ Unclipped (line wid bid s useBias w b) ∧ NoErrors (line wid bid s useBias w b) := by
  cases useBias <;> simp [line, Ready, Unclipped, NoErrors, Layer.Clean, Layer.queued]

/-- The records of a dataset for the mean squared error. -/
noncomputable def records (c : Loss.Constants) (data : List (Tensor ℝ × Tensor ℝ)) : List Record := data.map fun d => mseRecord c d.1 d.2

theorem line_loss (c : Loss.Constants) (wid bid : Nat) (s : Option ℝ) (useBias : Bool) {n m : Nat} (hm : 1 ≤ m) {w b : Tensor ℝ} (hw : Matrix n m w)
    (hb : Matrix 1 m b) {d : Tensor ℝ × Tensor ℝ} (hd : Matrix 1 n d.1 ∧ Matrix 1 m d.2) :
    lossOf (line wid bid s useBias w b) d.1 (mseRecord c d.1 d.2).loss = some (squares useBias w b d) := by
  obtain ⟨y, h1, h2, h3⟩ := line_predict wid bid s useBias hw hb hd.1
  have hsh : Shape y d.2 := ⟨h2.1.trans hd.2.1.symm, h2.2.1.trans hd.2.2.1.symm, h2.2.2.trans hd.2.2.2.symm⟩
  unfold lossOf mseRecord
  rw [h1, Option.bind_some]
  simp only
  rw [Loss.mse_closed c hsh, Option.map_some, Loss.size_shape hsh, total_finset, h2.1, h2.2.1, h2.2.2]
  have hp : (d.2.size : ℝ) ≠ 0 := by
    have : d.2.size = m := by unfold Tensor.size; rw [hd.2.1, hd.2.2.1, hd.2.2.2]; simp
    rw [this]
    have : (0 : ℝ) < m := by exact_mod_cast hm
    exact this.ne'
  rw [div_mul_cancel₀ _ hp, Finset.sum_range_one, Finset.sum_range_one]
  unfold squares
  rw [hw.2.1]
  congr 1
  refine Finset.sum_congr rfl fun c _ => ?_
  show (y.get 0 c 0 - d.2.get 0 c 0) ^ 2 = _
  rw [h3]

theorem mapM_some {α : Type} (l : List α) (f : α → Option ℝ) (g : α → ℝ) (h : ∀ a ∈ l, f a = some (g a)) : l.mapM f = some (l.map g) := by
  induction l with
  | nil => rfl
  | cons a l ih =>
    rw [List.mapM_cons, h a List.mem_cons_self, ih fun b hb => h b (List.mem_cons_of_mem _ hb)]
    rfl

theorem line_objective (c : Loss.Constants) (wid bid : Nat) (s : Option ℝ) (useBias : Bool) {n m : Nat} (hm : 1 ≤ m) {w b : Tensor ℝ}
    (hw : Matrix n m w) (hb : Matrix 1 m b) {data : List (Tensor ℝ × Tensor ℝ)} (hd : Records n m data) :
    objective (line wid bid s useBias w b) (records c data) = some (fit useBias (s.getD 0) data w b) := by
  have h1 : (records c data).mapM (fun r => lossOf (line wid bid s useBias w b) r.given r.loss) = some (data.map (squares useBias w b)) := by
    unfold records
    rw [List.mapM_map]
    exact mapM_some data _ _ fun d hmem => line_loss c wid bid s useBias hm hw hb (hd.2 d hmem)
  have h2 : ((line wid bid s useBias w b).map fun n => n.layer.penalty n.layer.params).sum = s.getD 0 / 2 * norm2 w := by
    have e : total w (fun i => el w i ^ 2) = norm2 w := by
      rw [total_finset, hw.2.2, Finset.sum_range_one]; rfl
    cases useBias <;> cases s <;> simp [line, Layer.penalty, Layer.params, e]
  unfold objective
  rw [h1, Option.map_some, h2]
  simp [fit, records]

theorem line_good (c : Loss.Constants) (wid bid : Nat) (s : Option ℝ) (useBias : Bool) {n m : Nat} (hm : 1 ≤ m) {w b : Tensor ℝ} (hw : Matrix n m w)
    (hb : Matrix 1 m b) {data : List (Tensor ℝ × Tensor ℝ)} (hd : Records n m data) : ∀ r ∈ records c data, r.Good (line wid bid s useBias w b) := by
  intro r hr
  obtain ⟨d, hmem, rfl⟩ := List.mem_map.mp hr
  obtain ⟨y, h1, h2, h3⟩ := line_predict wid bid s useBias hw hb (hd.2 d hmem).1
  refine mse_good c _ d.1 d.2 y (line_regular ..) h1 ⟨h2.1.trans (hd.2 d hmem).2.1.symm, h2.2.1.trans (hd.2 d hmem).2.2.1.symm, h2.2.2.trans (hd.2 d hmem).2.2.2.symm⟩ ?_
  unfold Tensor.size
  rw [h2.1, h2.2.1, h2.2.2]
  omega

theorem inner_dot {n m : Nat} {g v : Tensor ℝ} (hg : Matrix n m g) : Calculus.inner g v = dot g v := by
  rw [inner_finset, hg.2.2, Finset.sum_range_one]; rfl

theorem quadratic_deriv (a p q : ℝ) : HasDerivAt (fun z : ℝ => a + z * p + z ^ 2 * q) p 0 := by
  have h1 := ((hasDerivAt_id (0 : ℝ)).mul_const p).const_add a
  have h2 := ((hasDerivAt_id (0 : ℝ)).pow 2).mul_const q
  refine (h1.add h2).congr_deriv ?_
  simp

/-- A batch subtracts the gradient of the least-squares objective times the learning rates. -/
theorem line_batch (c : Loss.Constants) (wid bid : Nat) (s : Option ℝ) (useBias : Bool) (o : Optimizer.Opt ℝ) (ho : o.kind = .mbgd) {n m : Nat} (hm : 1 ≤ m)
    {w b : Tensor ℝ} (hw : Matrix n m w) (hb : Matrix 1 m b) {data : List (Tensor ℝ × Tensor ℝ)} (hd : Records n m data) :
    ∃ gw gb, Matrix n m gw ∧ Matrix 1 m gb ∧
      batch (line wid bid s useBias w b) o (records c data) =
        some (line wid bid s useBias (along w gw (-o.weights.rate)) (along b gb (-o.bias.rate)), o) ∧
      ∀ v u, Matrix n m v → Matrix 1 m u → slope useBias (s.getD 0) data w b v u = dot gw v + dot gb u := by
  obtain ⟨hr, hu, hq⟩ := line_ready wid bid s useBias w b
  have h0 : records c data ≠ [] := by
    unfold records; intro h; exact hd.1 (List.map_eq_nil_iff.mp h)
  obtain ⟨ns2, G, h1, h2, h3, h4, h5⟩ := batch_joint _ (records c data) hr hu hq h0 (line_good c wid bid s useBias hm hw hb hd)
  obtain ⟨ns', k1, k2⟩ := mbgd_batch ho h2 h4
  have hbatch : batch (line wid bid s useBias w b) o (records c data) = some (ns', o) := by rw [batch_eq h1, k1]
  -- nothing is left in the queues
  have hclean : NoErrors ns' ∧ Ready ns' := by
    obtain ⟨G', _, hG'⟩ := C92_apply_partial _ o (records c data) h0 hr hu hq (line_good c wid bid s useBias hm hw hb hd)
    cases hrun : Optimizer.run Real.sqrt o (calls (line wid bid s useBias w b) G') with
    | none =>
      rw [hrun] at hG'
      simp only at hG'
      rw [hbatch] at hG'
      cases hG'
    | some p =>
      obtain ⟨o', log⟩ := p
      rw [hrun] at hG'
      obtain ⟨ns'', e1, _, _, e2, e3⟩ := hG'
      rw [hbatch] at e1
      obtain ⟨rfl, _⟩ := Prod.mk.inj (Option.some.inj e1)
      exact ⟨e2, e3⟩
  cases useBias with
  | true =>
    have hsh0 := (h4 0 _ rfl).1
    have hsh1 := (h4 1 _ rfl).1
    have hsh2 := (h4 2 _ rfl).1
    have hg0 : Matrix n m (G 0) := ⟨hsh0.1.trans hw.1, hsh0.2.1.trans hw.2.1, hsh0.2.2.trans hw.2.2⟩
    have hg1 : Matrix 1 m (G 1) := ⟨hsh1.1.trans hb.1, hsh1.2.1.trans hb.2.1, hsh1.2.2.trans hb.2.2⟩
    refine ⟨G 0, G 1, hg0, hg1, ?_, fun v u hv hu' => ?_⟩
    · rw [hbatch]
      congr 2
      have e : (setAll (line wid bid s true w b) fun i => along (paramsAt (line wid bid s true w b) i) (G i) (-rateAt (line wid bid s true w b) o i)) =
        line wid bid s true (along w (G 0) (-o.weights.rate)) (along b (G 1) (-o.bias.rate)) := rfl
      rw [e] at k2
      obtain ⟨c1, c2⟩ := hclean
      match ns', k2, c1, c2 with
      | [p, q, r], .cons ⟨a1, a2⟩ (.cons ⟨b1, b2⟩ (.cons ⟨d1, d2⟩ .nil)), c1, c2 =>
        obtain ⟨lp, cp⟩ := p
        obtain ⟨lq, cq⟩ := q
        obtain ⟨lr, cr⟩ := r
        simp only at a1 a2 b1 b2 d1 d2
        subst a1 b1 d1
        cases lp <;> simp only [Alike] at a2
        cases lq <;> simp only [Alike] at b2
        cases lr <;> simp only [Alike] at d2
        rename_i dp dq kr qr
        obtain ⟨w1, w2, w3, w4, w5⟩ := dp
        obtain ⟨x1, x2, x3⟩ := dq
        simp only at a2 b2
        simp [NoErrors, Ready, Layer.queued, Layer.Clean] at c1 c2
        simp [line, a2, b2, c1, c2, d2]
    · obtain ⟨f, f1, f2⟩ := h5 (fun i z => along (paramsAt (line wid bid s true w b) i) (if i = 0 then v else u) (z * 1))
        (fun i => map (fun x => x * 1) (if i = 0 then v else u)) fun i n' hn' => by
          rw [← paramsAt_eq hn']; exact path_along _ _ _
      have e1 : f = fun z => fit true (s.getD 0) data w b + z * slope true (s.getD 0) data w b v u + z ^ 2 * curve true (s.getD 0) data v u := by
        funext z
        have e2 := f1 z
        have e3 : (setAll (line wid bid s true w b) fun i => along (paramsAt (line wid bid s true w b) i) (if i = 0 then v else u) (z * 1)) =
          line wid bid s true (along w v (z * 1)) (along b u (z * 1)) := rfl
        rw [e3, line_objective c wid bid s true hm (w := along w v (z * 1)) (b := along b u (z * 1)) hw hb hd, mul_one] at e2
        rw [← Option.some.inj e2, fit_along true _ data w b v u (hv.1.trans hw.1.symm) (hv.2.1.trans hw.2.1.symm)]
      rw [e1] at f2
      have e4 := (quadratic_deriv _ _ _).unique f2
      rw [e4]
      have hlen : (line wid bid s true w b).length = 3 := rfl
      rw [hlen, Finset.sum_range_succ, Finset.sum_range_succ, Finset.sum_range_one, inner_empty hsh2.1, add_zero, inner_times, inner_times, mul_one,
        mul_one, inner_dot hg0, inner_dot hg1]
      rfl
  | false =>
    have hsh0 := (h4 0 _ rfl).1
    have hsh1 := (h4 1 _ rfl).1
    have hg0 : Matrix n m (G 0) := ⟨hsh0.1.trans hw.1, hsh0.2.1.trans hw.2.1, hsh0.2.2.trans hw.2.2⟩
    refine ⟨G 0, ⟨1, m, 1, fun _ _ _ => 0⟩, hg0, ⟨rfl, rfl, rfl⟩, ?_, fun v u hv hu' => ?_⟩
    · rw [hbatch]
      congr 2
      have e : (setAll (line wid bid s false w b) fun i => along (paramsAt (line wid bid s false w b) i) (G i) (-rateAt (line wid bid s false w b) o i)) =
        line wid bid s false (along w (G 0) (-o.weights.rate)) (along b ⟨1, m, 1, fun _ _ _ => 0⟩ (-o.bias.rate)) := rfl
      rw [e] at k2
      obtain ⟨c1, c2⟩ := hclean
      match ns', k2, c1, c2 with
      | [p, r], .cons ⟨a1, a2⟩ (.cons ⟨d1, d2⟩ .nil), c1, c2 =>
        obtain ⟨lp, cp⟩ := p
        obtain ⟨lr, cr⟩ := r
        simp only at a1 a2 d1 d2
        subst a1 d1
        cases lp <;> simp only [Alike] at a2
        cases lr <;> simp only [Alike] at d2
        rename_i dp kr qr
        obtain ⟨w1, w2, w3, w4, w5⟩ := dp
        simp only at a2
        simp [NoErrors, Ready, Layer.queued, Layer.Clean] at c1 c2
        simp [line, a2, c1, c2, d2]
    · obtain ⟨f, f1, f2⟩ := h5 (fun i z => along (paramsAt (line wid bid s false w b) i) (if i = 0 then v else u) (z * 1))
        (fun i => map (fun x => x * 1) (if i = 0 then v else u)) fun i n' hn' => by
          rw [← paramsAt_eq hn']; exact path_along _ _ _
      have e1 : f = fun z => fit false (s.getD 0) data w b + z * slope false (s.getD 0) data w b v u + z ^ 2 * curve false (s.getD 0) data v u := by
        funext z
        have e2 := f1 z
        have e3 : (setAll (line wid bid s false w b) fun i => along (paramsAt (line wid bid s false w b) i) (if i = 0 then v else u) (z * 1)) =
          line wid bid s false (along w v (z * 1)) (along b u (z * 1)) := rfl
        rw [e3, line_objective c wid bid s false hm (w := along w v (z * 1)) (b := along b u (z * 1)) hw hb hd, mul_one] at e2
        rw [← Option.some.inj e2, fit_along false _ data w b v u (hv.1.trans hw.1.symm) (hv.2.1.trans hw.2.1.symm)]
      rw [e1] at f2
      have e4 := (quadratic_deriv _ _ _).unique f2
      rw [e4]
      have hlen : (line wid bid s false w b).length = 2 := rfl
      rw [hlen, Finset.sum_range_succ, Finset.sum_range_one, inner_empty hsh1.1, add_zero, inner_times, mul_one, inner_dot hg0]
      have : dot ⟨1, m, 1, fun _ _ _ => 0⟩ u = 0 := by simp [dot]
      rw [this, add_zero]
      rfl

/-! ### Lemmas: batches and epochs of the training loop -/

/-- The batches of an epoch, one after the other. -/
noncomputable def runBatches (c : Loss.Constants) (p : List Node × Optimizer.Opt ℝ) (chunks : List (List (Tensor ℝ × Tensor ℝ))) :
    Option (List Node × Optimizer.Opt ℝ) :=
  chunks.foldlM (fun p chunk => batch p.1 p.2 (records c chunk)) p

theorem feed_chain (c : Loss.Constants) (p : List Node × Optimizer.Opt ℝ) (chunk : List (Tensor ℝ × Tensor ℝ)) :
    ((chain c .mse).update (Training.feed (chain c .mse) (some p) chunk).1) = batch p.1 p.2 (records c chunk) := by
  have h : ∀ (chunk : List (Tensor ℝ × Tensor ℝ)) (n : Option (List Node)),
      (Training.feed (chain c .mse) (n.map fun ns => (ns, p.2)) chunk).1 =
        (n.bind fun ns => ((records c chunk).map fun r => (r.given, r.derivative)).foldlM (fun ns r => trainRecord ns r.1 r.2) ns).map fun ns => (ns, p.2) := by
    intro chunk
    induction chunk with
    | nil => intro n; cases n <;> rfl
    | cons d rest ih =>
      intro n
      have e : ((chain c .mse).learn (n.map fun ns => (ns, p.2)) d).1 =
          (n.bind fun ns => trainRecord ns d.1 (Loss.reported c .mse d.2)).map fun ns => (ns, p.2) := by
        cases n <;> rfl
      rw [Training.feed, e, ih]
      congr 1
      cases n with
      | none => rfl
      | some ns =>
        simp only [Option.bind_some, records, List.map_cons, List.foldlM_cons]
        rfl
  have h1 := h chunk (some p.1)
  rw [Option.map_some] at h1
  show Option.bind (Training.feed (chain c .mse) (some (p.1, p.2)) chunk).1 _ = _
  rw [h1]
  unfold batch trainBatch
  rw [Option.bind_some]
  cases List.foldlM (m := Option) (fun ns r => trainRecord ns r.1 r.2) p.1 ((records c chunk).map fun r => (r.given, r.derivative)) <;> rfl

theorem feedBatches_chain (c : Loss.Constants) (chunks : List (List (Tensor ℝ × Tensor ℝ))) (p : List Node × Optimizer.Opt ℝ)
    (q) (h : runBatches c p chunks = some q) : (Training.feedBatches (chain c .mse) (some p) chunks).1 = some q := by
  induction chunks generalizing p with
  | nil => exact h
  | cons chunk rest ih =>
    unfold runBatches at h
    rw [List.foldlM_cons] at h
    rw [Training.feedBatches, feed_chain]
    cases hb : batch p.1 p.2 (records c chunk) with
    | none => rw [hb] at h; cases h
    | some p' => rw [hb] at h; exact ih p' h

/-- One batch of the loop, if no loss is `nan`. -/
theorem epochLoop_fine {N R K : Type} (net : Training.Net N R K ℝ) (bs : Nat) (hbs : 1 ≤ bs) (rest : List R) (ch : List R) :
    ∀ (n : N) (cur off : Nat) (bl e : ExitStrategy.Num ℝ), ch ≠ [] → off + ch.length ≤ bs → (rest = [] ∨ off + ch.length = bs) →
      (∀ ls ∈ (Training.feed net n ch).2, ls.any Training.isNan = false) →
      ∃ cur' e', Training.epochLoop net bs n cur off bl e (ch ++ rest) =
        Training.epochLoop net bs (net.update (Training.feed net n ch).1) cur' 0 (.fin 0) e' rest := by
  induction ch with
  | nil => intro n cur off bl e h; exact absurd rfl h
  | cons r ch ih =>
    intro n cur off bl e _ hle hfull hn
    rw [Training.feed] at hn
    have hr := hn _ List.mem_cons_self
    rw [List.cons_append, Training.epochLoop]
    dsimp only
    rw [hr, if_neg (by decide)]
    rcases ch with _ | ⟨r2, ch⟩
    · have hcond : off + 1 ≥ bs ∨ ([] ++ rest).isEmpty := by
        rcases hfull with h1 | h1
        · right; simp [h1]
        · left; simp at h1; omega
      rw [if_pos hcond, if_neg (by omega)]
      exact ⟨_, _, rfl⟩
    · rw [if_neg (by
        simp only [List.length_cons] at hle
        simp
        omega)]
      exact ih (net.learn n r).1 (cur + 1) (off + 1) _ e (by simp)
        (by simp only [List.length_cons] at hle ⊢; omega) (by
          rcases hfull with h1 | h1
          · exact Or.inl h1
          · right; simp only [List.length_cons] at h1 ⊢; omega) fun ls hls => hn ls (List.mem_cons_of_mem _ hls)

theorem isBatches_tail {R : Type} {bs : Nat} {ch : List R} {cs : List (List R)} {recs : List R} (h : Training.IsBatches bs recs (ch :: cs)) :
    Training.IsBatches bs cs.flatten cs :=
  ⟨rfl, fun d hd => h.nonempty d (List.mem_cons_of_mem _ hd), fun d hd => h.small d (List.mem_cons_of_mem _ hd), by
    intro d hd
    rcases cs with _ | ⟨a, cs⟩
    · simp at hd
    · exact h.full d (by rw [List.dropLast_cons_cons]; exact List.mem_cons_of_mem _ hd)⟩

/-- An epoch completes if no loss is `nan`. -/
theorem epochLoop_completes {N R K : Type} (net : Training.Net N R K ℝ) (bs : Nat) (hbs : 1 ≤ bs) (chunks : List (List R)) :
    ∀ (n : N) (cur : Nat) (e : ExitStrategy.Num ℝ) (recs : List R), Training.IsBatches bs recs chunks →
      (∀ l ∈ (Training.feedBatches net n chunks).2, ∀ ls ∈ l, ls.any Training.isNan = false) →
      ∃ x, Training.epochLoop net bs n cur 0 (.fin 0) e recs = .ok x := by
  induction chunks with
  | nil =>
    intro n cur e recs hb _
    have := hb.all
    simp only [List.flatten_nil] at this
    subst this
    exact ⟨_, rfl⟩
  | cons ch cs ih =>
    intro n cur e recs hb hn
    rw [Training.feedBatches] at hn
    have hall := hb.all
    simp only [List.flatten_cons] at hall
    subst hall
    have hsmall := hb.small ch (by simp)
    have hfull : cs.flatten = [] ∨ 0 + ch.length = bs := by
      rcases cs with _ | ⟨d, cs⟩
      · exact Or.inl rfl
      · right
        rw [Nat.zero_add]
        exact hb.full ch (by simp [List.dropLast])
    obtain ⟨cur', e', h⟩ := epochLoop_fine net bs hbs cs.flatten ch n cur 0 (.fin 0) e (hb.nonempty ch (by simp)) (by omega) hfull
      (hn _ List.mem_cons_self)
    rw [h]
    exact ih _ _ _ _ (isBatches_tail hb) fun l hl => hn l (List.mem_cons_of_mem _ hl)

theorem losses_chunk (c : Loss.Constants) (wid bid : Nat) (s : Option ℝ) (useBias : Bool) {n m : Nat} (hm : 1 ≤ m)
    {w b : Tensor ℝ} (hw : Matrix n m w) (hb : Matrix 1 m b) (o : Optimizer.Opt ℝ) (chunk : List (Tensor ℝ × Tensor ℝ)) :
    ∀ ns : List Node, AlikeAll (line wid bid s useBias w b) ns → Ready ns → (∀ d ∈ chunk, Matrix 1 n d.1 ∧ Matrix 1 m d.2) →
      ∀ ls ∈ (Training.feed (chain c .mse) (some (ns, o)) chunk).2, ls.any Training.isNan = false := by
  induction chunk with
  | nil => intro ns _ _ _ ls hls; simp [Training.feed] at hls
  | cons d rest ih =>
    intro ns hal hr hd ls hls
    have hd0 := hd d List.mem_cons_self
    rw [Training.feed] at hls
    have hu := hal.unclipped (line_ready wid bid s useBias w b).2.1
    have hg := hal.good (line_good c wid bid s useBias hm hw hb (data := [d]) ⟨by simp, by simpa using hd0⟩ (mseRecord c d.1 d.2) (by simp [records]))
    obtain ⟨ns2, _, h1, h2, h3, _, _⟩ := record_joint hr hu hg
    have e1 : ((chain c .mse).learn (some (ns, o)) d).1 = some (ns2, o) := by
      show (trainRecord ns d.1 (Loss.reported c .mse d.2)).map (fun ns => (ns, o)) = _
      have : trainRecord ns d.1 (Loss.reported c .mse d.2) = some ns2 := h1
      rw [this]
      rfl
    rcases List.mem_cons.mp hls with rfl | hls
    · have hl := line_loss c wid bid s useBias hm hw hb hd0
      unfold lossOf mseRecord at hl
      rw [hal.predict] at hl
      simp only at hl
      obtain ⟨y, y1, y2⟩ := Option.bind_eq_some_iff.mp hl
      obtain ⟨v, v1, _⟩ := Option.map_eq_some_iff.mp y2
      have : lossNumber c .mse (some (ns, o)) d = .fin v := by
        unfold lossNumber
        simp only [y1, Option.bind_some, v1]
      show ([lossNumber c .mse (some (ns, o)) d].any Training.isNan) = false
      rw [this]
      rfl
    · rw [e1] at hls
      exact ih ns2 (hal.trans h2) h3 (fun d' hd' => hd d' (List.mem_cons_of_mem _ hd')) ls hls

theorem losses_epoch (c : Loss.Constants) (wid bid : Nat) (s : Option ℝ) (useBias : Bool) {n m : Nat} (hm : 1 ≤ m)
    (o : Optimizer.Opt ℝ) (ho : o.kind = .mbgd) (chunks : List (List (Tensor ℝ × Tensor ℝ))) :
    ∀ w b, Matrix n m w → Matrix 1 m b → (∀ chunk ∈ chunks, Records n m chunk) →
      ∀ l ∈ (Training.feedBatches (chain c .mse) (some (line wid bid s useBias w b, o)) chunks).2, ∀ ls ∈ l, ls.any Training.isNan = false := by
  induction chunks with
  | nil => intro w b _ _ _ l hl; simp [Training.feedBatches] at hl
  | cons chunk rest ih =>
    intro w b hw hb hd l hl
    rw [Training.feedBatches, feed_chain] at hl
    have hd0 := hd chunk List.mem_cons_self
    obtain ⟨gw, gb, h1, h2, h3, _⟩ := line_batch c wid bid s useBias o ho hm hw hb hd0
    rcases List.mem_cons.mp hl with rfl | hl
    · exact losses_chunk c wid bid s useBias hm hw hb o chunk _ (AlikeAll.refl _) (line_ready ..).1 hd0.2
    · simp only [h3] at hl
      exact ih (along w gw (-o.weights.rate)) (along b gb (-o.bias.rate)) hw hb (fun ch hch => hd ch (List.mem_cons_of_mem _ hch)) l hl

/-- An epoch of the training loop is the sequence of its batches. -/
theorem epoch_line (c : Loss.Constants) (wid bid : Nat) (s : Option ℝ) (useBias : Bool) {n m : Nat} (hm : 1 ≤ m)
    (o : Optimizer.Opt ℝ) (ho : o.kind = .mbgd) {w b : Tensor ℝ} (hw : Matrix n m w) (hb : Matrix 1 m b) (bs : Nat) (hbs : 1 ≤ bs)
    (recs : List (Tensor ℝ × Tensor ℝ)) (chunks : List (List (Tensor ℝ × Tensor ℝ))) (hc : Training.IsBatches bs recs chunks)
    (hd : ∀ chunk ∈ chunks, Records n m chunk) (q) (hq : runBatches c (line wid bid s useBias w b, Optimizer.tick o) chunks = some q) :
    ∃ loss, Training.epoch (chain c .mse) bs (some (line wid bid s useBias w b, o)) recs = .ok (some q, loss) := by
  obtain ⟨x, hx⟩ := epochLoop_completes (chain c .mse) bs hbs chunks (some (line wid bid s useBias w b, Optimizer.tick o)) 0 (.fin 0) recs hc
    (losses_epoch c wid bid s useBias hm (Optimizer.tick o) ho chunks w b hw hb hd)
  have hx' : Training.epoch (chain c .mse) bs (some (line wid bid s useBias w b, o)) recs = .ok (x.1, x.2) := hx
  have := (Training.C61 (chain c .mse) bs hbs _ x.1 x.2 recs hx').2 chunks hc
  have hb' : (chain c .mse).beginEpoch (some (line wid bid s useBias w b, o)) = some (line wid bid s useBias w b, Optimizer.tick o) := rfl
  rw [hb', feedBatches_chain c chunks _ q hq] at this
  exact ⟨x.2, by rw [hx', this]⟩

/-! ### Lemmas: steps with small enough learning rates -/

theorem line_step (c : Loss.Constants) (wid bid : Nat) (s : Option ℝ) (hs : 0 ≤ s.getD 0) (useBias : Bool) (o : Optimizer.Opt ℝ) (ho : o.kind = .mbgd)
    (hrw : 0 < o.weights.rate) (hrb : 0 < o.bias.rate) {n m : Nat} (hm : 1 ≤ m) {w b : Tensor ℝ} (hw : Matrix n m w) (hb : Matrix 1 m b)
    {data : List (Tensor ℝ × Tensor ℝ)} (hd : Records n m data) (hre : reach useBias (s.getD 0) o.weights.rate o.bias.rate n data ≤ 1 / 2) :
    ∃ w' b', Matrix n m w' ∧ Matrix 1 m b' ∧
      batch (line wid bid s useBias w b) o (records c data) = some (line wid bid s useBias w' b', o) ∧
      distance o.weights.rate o.bias.rate w b w' b' ≤ 2 * (fit useBias (s.getD 0) data w b - fit useBias (s.getD 0) data w' b') ∧
      ∀ qw qb, Matrix n m qw → Matrix 1 m qb → distance o.weights.rate o.bias.rate w' b' qw qb +
        2 * (fit useBias (s.getD 0) data w' b' - fit useBias (s.getD 0) data qw qb) + 2 * curve useBias (s.getD 0) data (minus qw w) (minus qb b) ≤
          distance o.weights.rate o.bias.rate w b qw qb := by
  obtain ⟨gw, gb, h1, h2, h3, h4⟩ := line_batch c wid bid s useBias o ho hm hw hb hd
  obtain ⟨h5, h6⟩ := step useBias (s.getD 0) o.weights.rate o.bias.rate hs hrw hrb data hd.1 n m w b gw gb hw hb h1 h2 h4 hre
  exact ⟨along w gw (-o.weights.rate), along b gb (-o.bias.rate), hw, hb, h3, h5, h6⟩

theorem fit_perm (useBias : Bool) (s : ℝ) {d d' : List (Tensor ℝ × Tensor ℝ)} (h : d.Perm d') (w b : Tensor ℝ) :
    fit useBias s d w b = fit useBias s d' w b := by
  unfold fit
  rw [(h.map _).sum_eq, h.length_eq]

theorem reach_perm (useBias : Bool) (s rw rb : ℝ) (n : Nat) {d d' : List (Tensor ℝ × Tensor ℝ)} (h : d.Perm d') :
    reach useBias s rw rb n d = reach useBias s rw rb n d' := by
  unfold reach power
  rw [(h.map _).sum_eq, h.length_eq]

theorem records_perm {n m : Nat} {d d' : List (Tensor ℝ × Tensor ℝ)} (h : d.Perm d') (hd : Records n m d) : Records n m d' :=
  ⟨fun h0 => hd.1 (by rw [h0] at h; exact h.eq_nil), fun x hx => hd.2 x (h.symm.subset hx)⟩

theorem one_batch {R : Type} {recs : List R} (h0 : recs ≠ []) : Training.IsBatches recs.length recs [recs] :=
  ⟨by simp, by simpa using h0, by simp, by simp⟩

/-- The optimizer after some epochs: only its time step counts on. -/
def ticked (o : Optimizer.Opt ℝ) : Nat → Optimizer.Opt ℝ
  | 0 => o
  | e + 1 => Optimizer.tick (ticked o e)

theorem ticked_same (o : Optimizer.Opt ℝ) (e : Nat) : (ticked o e).kind = o.kind ∧ (ticked o e).weights = o.weights ∧ (ticked o e).bias = o.bias := by
  induction e with
  | zero => exact ⟨rfl, rfl, rfl⟩
  | succ e ih => exact ih

/-- A sequence of states from a step that is always possible. -/
theorem iterate {α : Type} (I : α → Prop) (R : Nat → α → α → Prop) (h : ∀ e a, I a → ∃ a', I a' ∧ R e a a') (a0 : α) (h0 : I a0) :
    ∃ f : Nat → α, f 0 = a0 ∧ (∀ e, I (f e)) ∧ ∀ e, R e (f e) (f (e + 1)) := by
  choose next hI hR using h
  let f : Nat → {a // I a} := fun e => Nat.rec ⟨a0, h0⟩ (fun e a => ⟨next e a.1 a.2, hI e a.1 a.2⟩) e
  exact ⟨fun e => (f e).1, rfl, fun e => (f e).2, fun e => hR e (f e).1 (f e).2⟩

/-- An epoch of batches, if some parameters fit exactly. -/
theorem chunks_exact (c : Loss.Constants) (wid bid : Nat) (useBias : Bool) (o : Optimizer.Opt ℝ) (ho : o.kind = .mbgd)
    (hrw : 0 < o.weights.rate) (hrb : 0 < o.bias.rate) {n m : Nat} (hm : 1 ≤ m) (chunks : List (List (Tensor ℝ × Tensor ℝ))) :
    (∀ chunk ∈ chunks, Records n m chunk) → (∀ chunk ∈ chunks, ∀ d ∈ chunk, reach useBias 0 o.weights.rate o.bias.rate n [d] ≤ 1 / 2) →
    ∀ w b, Matrix n m w → Matrix 1 m b → ∃ w' b', ∃ S : ℝ, Matrix n m w' ∧ Matrix 1 m b' ∧ 0 ≤ S ∧
      runBatches c (line wid bid none useBias w b, o) chunks = some (line wid bid none useBias w' b', o) ∧
      (∀ qw qb, Matrix n m qw → Matrix 1 m qb → (∀ chunk ∈ chunks, ∀ d ∈ chunk, squares useBias qw qb d = 0) →
        distance o.weights.rate o.bias.rate w' b' qw qb + 2 * S ≤ distance o.weights.rate o.bias.rate w b qw qb) ∧
      ∀ aw ab, Matrix n m aw → Matrix 1 m ab → ∀ t β : ℝ, 1 ≤ t → 0 ≤ β → distance o.weights.rate o.bias.rate aw ab w b ≤ t * β →
        (chunks.map fun chunk => fit useBias 0 chunk aw ab).sum ≤ 2 * S + chunks.length * (t + chunks.length) * (β + 2 * S) := by
  induction chunks with
  | nil =>
    intro _ _ w b hw hb
    exact ⟨w, b, 0, hw, hb, le_refl _, rfl, fun _ _ _ _ _ => by simp, fun _ _ _ _ _ _ _ _ _ => by simp⟩
  | cons chunk rest ih =>
    intro hd hre w b hw hb
    have hd0 := hd chunk List.mem_cons_self
    have hre0 := reach_all useBias o.weights.rate o.bias.rate n chunk hd0.1 (hre chunk List.mem_cons_self)
    obtain ⟨w1, b1, h1, h2, h3, h4, h5⟩ := line_step c wid bid none (le_refl _) useBias o ho hrw hrb hm hw hb hd0 hre0
    simp only [Option.getD_none] at h4 h5
    obtain ⟨w', b', S, k1, k2, k3, k4, k5, k6⟩ := ih (fun ch hch => hd ch (List.mem_cons_of_mem _ hch)) (fun ch hch => hre ch (List.mem_cons_of_mem _ hch))
      w1 b1 h1 h2
    have hf := fit_nonneg useBias (le_refl (0 : ℝ)) chunk w b
    have hf1 := fit_nonneg useBias (le_refl (0 : ℝ)) chunk w1 b1
    refine ⟨w', b', S + fit useBias 0 chunk w b, k1, k2, by linarith, ?_, ?_, ?_⟩
    · unfold runBatches
      rw [List.foldlM_cons, h3]
      exact k4
    · intro qw qb hqw hqb hq
      obtain ⟨e1, e2⟩ := fit_exact useBias chunk (b := b) (qb := qb) hw hqw (hq chunk List.mem_cons_self)
      have e3 := h5 qw qb hqw hqb
      have e4 := k5 qw qb hqw hqb fun ch hch => hq ch (List.mem_cons_of_mem _ hch)
      rw [e1, ← e2] at e3
      linarith
    · intro aw ab haw hab t β ht hβ hdist
      have e1 := fit_other useBias chunk (b := b) (qb := ab) hw haw
      have e2 := curve_le useBias 0 o.weights.rate o.bias.rate (le_refl _) hrw hrb chunk hd0.1 (minus aw w) (minus ab b) hab.1
        (hab.2.1.trans haw.2.1.symm) (by show reach useBias 0 _ _ aw.rows chunk ≤ _; rw [haw.1]; exact hre0)
      have e2' : curve useBias 0 chunk (minus aw w) (minus ab b) ≤ 1 / 2 * distance o.weights.rate o.bias.rate aw ab w b := e2
      have e3 := distance_via hrw hrb haw hab hw hb (w := w1) (w' := b1) ht
      have ht0 : 0 < t := by linarith
      have e4 : (1 + 1 / t) * distance o.weights.rate o.bias.rate aw ab w b ≤ (t + 1) * β := by
        have := mul_le_mul_of_nonneg_left hdist (by positivity : 0 ≤ 1 + 1 / t)
        refine this.trans_eq ?_
        field_simp
      have e5 : (1 + t) * distance o.weights.rate o.bias.rate w b w1 b1 ≤ (1 + t) * (2 * fit useBias 0 chunk w b) :=
        mul_le_mul_of_nonneg_left (by linarith) (by linarith)
      have e6 := k6 aw ab haw hab (t + 1) (β + 2 * fit useBias 0 chunk w b) (by linarith) (by linarith) (by linarith)
      rw [List.map_cons, List.sum_cons, List.length_cons]
      push_cast
      generalize fit useBias 0 chunk w b = x at *
      generalize (List.map (fun chunk => fit useBias 0 chunk aw ab) rest).sum = y at *
      have hl : (0 : ℝ) ≤ rest.length := Nat.cast_nonneg _
      generalize (rest.length : ℝ) = l at *
      have e7 : fit useBias 0 chunk aw ab ≤ 2 * x + t * β := by linarith
      have e8 : 0 ≤ (t + 1 + l) * (β + 2 * (S + x)) - t * β := by nlinarith [mul_nonneg hl hβ, mul_nonneg ht0.le k3, mul_nonneg ht0.le hf, mul_nonneg hl k3, mul_nonneg hl hf]
      calc fit useBias 0 chunk aw ab + y ≤ (2 * x + t * β) + (2 * S + l * (t + 1 + l) * (β + 2 * x + 2 * S)) := add_le_add e7 e6
        _ ≤ 2 * (S + x) + (l + 1) * (t + (l + 1)) * (β + 2 * (S + x)) := by linarith

theorem fit_chunks (useBias : Bool) (w b : Tensor ℝ) (data : List (Tensor ℝ × Tensor ℝ)) (chunks : List (List (Tensor ℝ × Tensor ℝ)))
    (hp : chunks.flatten.Perm data) : fit useBias 0 data w b ≤ (chunks.map fun chunk => fit useBias 0 chunk w b).sum := by
  rw [← fit_perm useBias 0 hp]
  have hlen : ∀ chunk ∈ chunks, chunk.length ≤ chunks.flatten.length := fun chunk h => (List.sublist_flatten_of_mem h).length_le
  generalize hL : chunks.flatten.length = L at hlen
  unfold fit
  simp only [zero_div, zero_mul, add_zero]
  rw [hL]
  clear hL hp
  induction chunks with
  | nil => simp
  | cons chunk rest ih =>
    rw [List.flatten_cons, List.map_append, List.sum_append, List.map_cons, List.sum_cons, add_div]
    refine add_le_add ?_ (ih fun ch hch => hlen ch (List.mem_cons_of_mem _ hch))
    have h0 : 0 ≤ (chunk.map (squares useBias w b)).sum := List.sum_nonneg fun x hx => by
      obtain ⟨d, _, rfl⟩ := List.mem_map.mp hx
      exact squares_nonneg useBias w b d
    rcases Nat.eq_zero_or_pos chunk.length with hz | hz
    · have : chunk = [] := List.length_eq_zero_iff.mp hz
      simp [this]
    · have h1 := hlen chunk List.mem_cons_self
      have h2 : (0 : ℝ) < chunk.length := by exact_mod_cast hz
      have h3 : (chunk.length : ℝ) ≤ L := by exact_mod_cast h1
      gcongr

theorem chunks_length {R : Type} {bs : Nat} {recs : List R} {chunks : List (List R)} (h : Training.IsBatches bs recs chunks) :
    chunks.length ≤ recs.length := by
  rw [← h.all, List.length_flatten]
  have : ∀ l : List (List R), (∀ ch ∈ l, ch ≠ []) → l.length ≤ (l.map List.length).sum := by
    intro l
    induction l with
    | nil => simp
    | cons ch l ih =>
      intro hn
      have h1 := List.length_pos_iff.mpr (hn ch List.mem_cons_self)
      have h2 := ih fun c hc => hn c (List.mem_cons_of_mem _ hc)
      simp only [List.length_cons, List.map_cons, List.sum_cons]
      omega
  exact this chunks h.nonempty

/-! ### C125 -/

/-- C125. Training with the whole dataset as one batch, in whatever order every epoch shuffles it: after `e` epochs the objective is at
most by `distance / (2 * e)` above that of any other weights and biases, and it never grows. Missing: other optimizers, larger learning rates
(`C125_violated`), rounding. -/
theorem C125_partial (c : Loss.Constants) (wid bid : Nat) (s : Option ℝ) (hs : 0 ≤ s.getD 0) (useBias : Bool) (o : Optimizer.Opt ℝ) (ho : o.kind = .mbgd)
    (hrw : 0 < o.weights.rate) (hrb : 0 < o.bias.rate) (n m : Nat) (hm : 1 ≤ m) (w b : Tensor ℝ) (hw : Matrix n m w) (hb : Matrix 1 m b)
    (data : List (Tensor ℝ × Tensor ℝ)) (hd : Records n m data) (hre : reach useBias (s.getD 0) o.weights.rate o.bias.rate n data ≤ 1 / 2)
    (g : Training.Setting (Tensor ℝ × Tensor ℝ) ℝ) (hg : ∀ e, (g.order e).Perm data) :
    ∃ W B : Nat → Tensor ℝ, W 0 = w ∧ B 0 = b ∧ (∀ e, Matrix n m (W e) ∧ Matrix 1 m (B e)) ∧
      (∀ e, Training.states (chain c .mse) data.length g (some (line wid bid s useBias w b, o)) e =
        some (some (line wid bid s useBias (W e) (B e), ticked o e))) ∧
      (∀ e, fit useBias (s.getD 0) data (W (e + 1)) (B (e + 1)) ≤ fit useBias (s.getD 0) data (W e) (B e)) ∧
      ∀ qw qb, Matrix n m qw → Matrix 1 m qb → ∀ e : Nat, 0 < e → fit useBias (s.getD 0) data (W e) (B e) ≤
        fit useBias (s.getD 0) data qw qb + distance o.weights.rate o.bias.rate w b qw qb / (2 * e) := by
  obtain ⟨f, f0, fI, fR⟩ := iterate (fun p : Tensor ℝ × Tensor ℝ => Matrix n m p.1 ∧ Matrix 1 m p.2)
    (fun e p p' => (∃ loss, Training.epoch (chain c .mse) data.length (some (line wid bid s useBias p.1 p.2, ticked o e)) (g.order e) =
        .ok (some (line wid bid s useBias p'.1 p'.2, ticked o (e + 1)), loss)) ∧
      distance o.weights.rate o.bias.rate p.1 p.2 p'.1 p'.2 ≤ 2 * (fit useBias (s.getD 0) data p.1 p.2 - fit useBias (s.getD 0) data p'.1 p'.2) ∧
      ∀ qw qb, Matrix n m qw → Matrix 1 m qb → distance o.weights.rate o.bias.rate p'.1 p'.2 qw qb +
        2 * (fit useBias (s.getD 0) data p'.1 p'.2 - fit useBias (s.getD 0) data qw qb) ≤ distance o.weights.rate o.bias.rate p.1 p.2 qw qb) (by
      rintro e ⟨pw, pb⟩ ⟨hpw, hpb⟩
      have hd' := records_perm (hg e).symm hd
      obtain ⟨t1, t2, t3⟩ := ticked_same o (e + 1)
      obtain ⟨w', b', h1, h2, h3, h4, h5⟩ := line_step c wid bid s hs useBias (ticked o (e + 1)) (t1.trans ho) (by rw [t2]; exact hrw) (by rw [t3]; exact hrb)
        hm hpw hpb hd' (by rw [t2, t3, reach_perm useBias _ _ _ _ (hg e)]; exact hre)
      rw [t2, t3, fit_perm useBias _ (hg e), fit_perm useBias _ (hg e)] at h4
      refine ⟨(w', b'), ⟨h1, h2⟩, ?_, h4, fun qw qb hqw hqb => ?_⟩
      · rw [← (hg e).length_eq]
        refine epoch_line c wid bid s useBias hm (ticked o e) ((ticked_same o e).1.trans ho) hpw hpb _ (List.length_pos_iff.mpr hd'.1) (g.order e)
          [g.order e] (one_batch hd'.1) (by simpa using hd') _ ?_
        show List.foldlM (m := Option) _ _ [_] = _
        rw [List.foldlM_cons]
        have h3' : batch (line wid bid s useBias pw pb) (Optimizer.tick (ticked o e)) (records c (g.order e)) =
          some (line wid bid s useBias w' b', ticked o (e + 1)) := h3
        rw [h3']
        rfl
      · have h6 := h5 qw qb hqw hqb
        rw [t2, t3, fit_perm useBias _ (hg e), fit_perm useBias _ (hg e)] at h6
        have := curve_nonneg useBias (s.getD 0) hs (g.order e) (minus qw pw) (minus qb pb)
        linarith) (w, b) ⟨hw, hb⟩
  have hmono : ∀ e, fit useBias (s.getD 0) data (f (e + 1)).1 (f (e + 1)).2 ≤ fit useBias (s.getD 0) data (f e).1 (f e).2 := by
    intro e
    have h1 := (fR e).2.1
    have h2 := distance_nonneg hrw hrb (f e).1 (f e).2 (f (e + 1)).1 (f (e + 1)).2
    linarith
  refine ⟨fun e => (f e).1, fun e => (f e).2, by simp [f0], by simp [f0], fI, ?_, hmono, ?_⟩
  · intro e
    induction e with
    | zero => simp [Training.states, f0, ticked]
    | succ e ih =>
      obtain ⟨loss, hl⟩ := (fR e).1
      simp only [Training.states, ih, hl]
  · intro qw qb hqw hqb e he
    have hsum : ∀ e : Nat, distance o.weights.rate o.bias.rate (f e).1 (f e).2 qw qb +
        2 * (e * (fit useBias (s.getD 0) data (f e).1 (f e).2 - fit useBias (s.getD 0) data qw qb)) ≤ distance o.weights.rate o.bias.rate w b qw qb := by
      intro e
      induction e with
      | zero => simp [f0]
      | succ e ih =>
        have h1 := (fR e).2.2 qw qb hqw hqb
        have h2 := mul_le_mul_of_nonneg_left (hmono e) (Nat.cast_nonneg (α := ℝ) e)
        push_cast
        linarith
    have h1 := hsum e
    have h2 := distance_nonneg hrw hrb (f e).1 (f e).2 qw qb
    have he' : (0 : ℝ) < e := by exact_mod_cast he
    rw [← sub_le_iff_le_add', le_div_iff₀ (by positivity)]
    linarith

/-- C125. Hence training comes as close as one likes to the best fit: whatever weights and biases are compared, after enough epochs those of
the network are not worse by more than `ε`. -/
theorem C125_limit_partial (c : Loss.Constants) (wid bid : Nat) (s : Option ℝ) (hs : 0 ≤ s.getD 0) (useBias : Bool) (o : Optimizer.Opt ℝ) (ho : o.kind = .mbgd)
    (hrw : 0 < o.weights.rate) (hrb : 0 < o.bias.rate) (n m : Nat) (hm : 1 ≤ m) (w b : Tensor ℝ) (hw : Matrix n m w) (hb : Matrix 1 m b)
    (data : List (Tensor ℝ × Tensor ℝ)) (hd : Records n m data) (hre : reach useBias (s.getD 0) o.weights.rate o.bias.rate n data ≤ 1 / 2)
    (g : Training.Setting (Tensor ℝ × Tensor ℝ) ℝ) (hg : ∀ e, (g.order e).Perm data) (qw qb : Tensor ℝ) (hqw : Matrix n m qw) (hqb : Matrix 1 m qb)
    (ε : ℝ) (hε : 0 < ε) :
    ∃ E, ∀ e ≥ E, ∃ we be oe, Training.states (chain c .mse) data.length g (some (line wid bid s useBias w b, o)) e =
        some (some (line wid bid s useBias we be, oe)) ∧ Matrix n m we ∧ Matrix 1 m be ∧
        fit useBias (s.getD 0) data we be < fit useBias (s.getD 0) data qw qb + ε := by
  obtain ⟨W, B, _, _, h3, h4, _, h6⟩ := C125_partial c wid bid s hs useBias o ho hrw hrb n m hm w b hw hb data hd hre g hg
  obtain ⟨E, hE⟩ := exists_nat_gt (distance o.weights.rate o.bias.rate w b qw qb / (2 * ε))
  refine ⟨E + 1, fun e he => ⟨W e, B e, _, h4 e, (h3 e).1, (h3 e).2, ?_⟩⟩
  have he0 : 0 < e := by omega
  have he1 : (E : ℝ) < e := by exact_mod_cast (by omega : E < e)
  have he2 : (0 : ℝ) < e := by exact_mod_cast he0
  refine (h6 qw qb hqw hqb e he0).trans_lt ?_
  have : distance o.weights.rate o.bias.rate w b qw qb / (2 * e) < ε := by
    rw [div_lt_iff₀ (by positivity)] at hE ⊢
    nlinarith
  linarith

/-- C125. If some weights and biases fit all records exactly, batches of any size will do, again in whatever order every epoch shuffles the
records: the parameters never move away from any exact fit, and the objective of the whole dataset, summed over all epochs, is bounded; so it
goes to zero. The learning rates have to be small enough for every single record, and no L2 regularization is used. -/
theorem C125_batches_partial (c : Loss.Constants) (wid bid : Nat) (useBias : Bool) (o : Optimizer.Opt ℝ) (ho : o.kind = .mbgd)
    (hrw : 0 < o.weights.rate) (hrb : 0 < o.bias.rate) (n m : Nat) (hm : 1 ≤ m) (w b : Tensor ℝ) (hw : Matrix n m w) (hb : Matrix 1 m b)
    (data : List (Tensor ℝ × Tensor ℝ)) (hd : Records n m data) (hre : ∀ d ∈ data, reach useBias 0 o.weights.rate o.bias.rate n [d] ≤ 1 / 2)
    (bs : Nat) (hbs : 1 ≤ bs) (g : Training.Setting (Tensor ℝ × Tensor ℝ) ℝ) (hg : ∀ e, (g.order e).Perm data)
    (hex : ∃ qw qb, Matrix n m qw ∧ Matrix 1 m qb ∧ ∀ d ∈ data, squares useBias qw qb d = 0) :
    ∃ W B : Nat → Tensor ℝ, W 0 = w ∧ B 0 = b ∧ (∀ e, Matrix n m (W e) ∧ Matrix 1 m (B e)) ∧
      (∀ e, Training.states (chain c .mse) bs g (some (line wid bid none useBias w b, o)) e =
        some (some (line wid bid none useBias (W e) (B e), ticked o e))) ∧
      (∀ qw qb, Matrix n m qw → Matrix 1 m qb → (∀ d ∈ data, squares useBias qw qb d = 0) →
        (∀ e, distance o.weights.rate o.bias.rate (W (e + 1)) (B (e + 1)) qw qb ≤ distance o.weights.rate o.bias.rate (W e) (B e) qw qb) ∧
        ∀ E, ∑ e ∈ Finset.range E, fit useBias 0 data (W e) (B e) ≤
          (1 + data.length + data.length ^ 2) * distance o.weights.rate o.bias.rate w b qw qb) ∧
      Filter.Tendsto (fun e => fit useBias 0 data (W e) (B e)) Filter.atTop (nhds 0) := by
  obtain ⟨f, f0, fI, fR⟩ := iterate (fun p : Tensor ℝ × Tensor ℝ => Matrix n m p.1 ∧ Matrix 1 m p.2)
    (fun e p p' => (∃ loss, Training.epoch (chain c .mse) bs (some (line wid bid none useBias p.1 p.2, ticked o e)) (g.order e) =
        .ok (some (line wid bid none useBias p'.1 p'.2, ticked o (e + 1)), loss)) ∧
      ∃ S : ℝ, 0 ≤ S ∧ (∀ qw qb, Matrix n m qw → Matrix 1 m qb → (∀ d ∈ data, squares useBias qw qb d = 0) →
        distance o.weights.rate o.bias.rate p'.1 p'.2 qw qb + 2 * S ≤ distance o.weights.rate o.bias.rate p.1 p.2 qw qb) ∧
        fit useBias 0 data p.1 p.2 ≤ 2 * (1 + data.length + data.length ^ 2) * S) (by
      rintro e ⟨pw, pb⟩ ⟨hpw, hpb⟩
      obtain ⟨t1, t2, t3⟩ := ticked_same o (e + 1)
      obtain ⟨chunks, hch⟩ := Training.isBatches_exists bs hbs _ (g.order e) (Nat.le_refl _)
      have hmem : ∀ chunk ∈ chunks, ∀ d ∈ chunk, d ∈ data := fun chunk h d hdm =>
        (hg e).subset (by rw [← hch.all]; exact List.mem_flatten.mpr ⟨chunk, h, hdm⟩)
      have hrec : ∀ chunk ∈ chunks, Records n m chunk := fun chunk h => ⟨hch.nonempty chunk h, fun d hdm => hd.2 d (hmem chunk h d hdm)⟩
      obtain ⟨w', b', S, h1, h2, h3, h4, h5, h6⟩ := chunks_exact c wid bid useBias (ticked o (e + 1)) (t1.trans ho) (by rw [t2]; exact hrw)
        (by rw [t3]; exact hrb) hm chunks hrec (by rw [t2, t3]; exact fun chunk h d hdm => hre d (hmem chunk h d hdm)) pw pb hpw hpb
      rw [t2, t3] at h5 h6
      refine ⟨(w', b'), ⟨h1, h2⟩, epoch_line c wid bid none useBias hm (ticked o e) ((ticked_same o e).1.trans ho) hpw hpb bs hbs _ chunks hch hrec _ h4,
        S, h3, fun qw qb hqw hqb hq => h5 qw qb hqw hqb fun chunk h d hdm => hq d (hmem chunk h d hdm), ?_⟩
      have e1 := fit_chunks useBias pw pb data chunks (by rw [hch.all]; exact hg e)
      have e2 := h6 pw pb hpw hpb 1 0 (le_refl _) (le_refl _) (by rw [distance_self]; simp)
      have e3 : (chunks.length : ℝ) ≤ data.length := by
        have := chunks_length hch
        rw [(hg e).length_eq] at this
        exact_mod_cast this
      have e4 : (0 : ℝ) ≤ chunks.length := Nat.cast_nonneg _
      refine (e1.trans e2).trans ?_
      have e5 : (chunks.length : ℝ) * (1 + chunks.length) ≤ data.length * (1 + data.length) := by gcongr
      have e6 := mul_le_mul_of_nonneg_right e5 (by linarith : 0 ≤ 2 * S)
      nlinarith) (w, b) ⟨hw, hb⟩
  have hall : ∀ qw qb, Matrix n m qw → Matrix 1 m qb → (∀ d ∈ data, squares useBias qw qb d = 0) →
        (∀ e, distance o.weights.rate o.bias.rate (f (e + 1)).1 (f (e + 1)).2 qw qb ≤ distance o.weights.rate o.bias.rate (f e).1 (f e).2 qw qb) ∧
        ∀ E, ∑ e ∈ Finset.range E, fit useBias 0 data (f e).1 (f e).2 ≤
          (1 + data.length + data.length ^ 2) * distance o.weights.rate o.bias.rate w b qw qb := by
    intro qw qb hqw hqb hq
    refine ⟨fun e => ?_, fun E => ?_⟩
    · obtain ⟨S, h1, h2, _⟩ := (fR e).2
      have := h2 qw qb hqw hqb hq
      linarith
    · have hsum : ∑ e ∈ Finset.range E, fit useBias 0 data (f e).1 (f e).2 +
          (1 + data.length + data.length ^ 2) * distance o.weights.rate o.bias.rate (f E).1 (f E).2 qw qb ≤
          (1 + data.length + data.length ^ 2) * distance o.weights.rate o.bias.rate w b qw qb := by
        induction E with
        | zero => simp [f0]
        | succ E ih =>
          obtain ⟨S, h1, h2, h3⟩ := (fR E).2
          have h4 := h2 qw qb hqw hqb hq
          have hk : (0 : ℝ) ≤ 1 + data.length + data.length ^ 2 := by positivity
          generalize (1 + (data.length : ℝ) + data.length ^ 2) = k at *
          have h5 := mul_le_mul_of_nonneg_left h4 hk
          rw [Finset.sum_range_succ]
          nlinarith
      have h1 := distance_nonneg hrw hrb (f E).1 (f E).2 qw qb
      have hk : (0 : ℝ) ≤ 1 + data.length + data.length ^ 2 := by positivity
      have := mul_nonneg hk h1
      linarith
  refine ⟨fun e => (f e).1, fun e => (f e).2, by simp [f0], by simp [f0], fI, ?_, hall, ?_⟩
  · intro e
    induction e with
    | zero => simp [Training.states, f0, ticked]
    | succ e ih =>
      obtain ⟨loss, hl⟩ := (fR e).1
      simp only [Training.states, ih, hl]
  · obtain ⟨qw, qb, hqw, hqb, hq⟩ := hex
    exact (summable_of_sum_range_le (fun e => fit_nonneg useBias (le_refl 0) data (f e).1 (f e).2) (hall qw qb hqw hqb hq).2).tendsto_atTop_zero

/-- C125. The learning rates and the strength of the L2 regularization that are used if none are given (happyml_dsl.hpp:49-52, 144, 156) are small
enough if the mean of the squared lengths of the inputs is at most 99: for 99 inputs between -1 and 1, for example. -/
theorem C125_default (useBias : Bool) (n : Nat) (data : List (Tensor ℝ × Tensor ℝ)) (h : power n data ≤ 99) :
    reach useBias (2 / 100) (5 / 1000) (1 / 1000) n data ≤ 1 / 2 := by
  unfold reach
  cases useBias <;> simp <;> linarith

/-- C125 fails for larger inputs: with the learning rates that are used if none are given, one record with the input 20 and the truth 0, and the
weight 1 to begin with, the error grows ninefold with every epoch, although the weight 0 fits exactly. -/
theorem C125_violated (c : Loss.Constants) (g : Training.Setting (Tensor ℝ × Tensor ℝ) ℝ) (hg : ∀ e, g.order e = [(one 20, one 0)]) :
    squares false (one 0) (one 0) (one 20, one 0) = 0 ∧
    ∀ e, ∃ we be oe, Training.states (chain c .mse) 1 g
        (some (line 0 0 none false (one 1) (one 0), Optimizer.create .mbgd Optimizer.Hyper.code (5 / 1000) (1 / 1000))) e =
          some (some (line 0 0 none false we be, oe)) ∧ fit false 0 [(one 20, one 0)] we be = 400 * 9 ^ e := by
  refine ⟨by simp [squares, output, one], ?_⟩
  have hd : Records 1 1 [(one 20, one 0)] := ⟨by simp, by simp [Matrix, one]⟩
  have ho : ∀ e, (ticked (Optimizer.create .mbgd Optimizer.Hyper.code (5 / 1000) (1 / 1000)) e).kind = .mbgd ∧
      (ticked (Optimizer.create .mbgd Optimizer.Hyper.code (5 / 1000) (1 / 1000)) e).weights.rate = 5 / 1000 := by
    intro e
    obtain ⟨h1, h2, _⟩ := ticked_same (Optimizer.create .mbgd Optimizer.Hyper.code (5 / 1000) (1 / 1000)) e
    exact ⟨h1, by rw [h2]; rfl⟩
  generalize hO : (Optimizer.create .mbgd Optimizer.Hyper.code (5 / 1000) (1 / 1000) : Optimizer.Opt ℝ) = O at ho
  obtain ⟨f, f0, fI, fR⟩ := iterate (fun p : Tensor ℝ × Tensor ℝ => Matrix 1 1 p.1 ∧ Matrix 1 1 p.2)
    (fun e p p' => (∃ loss, Training.epoch (chain c .mse) 1 (some (line 0 0 none false p.1 p.2, ticked O e)) (g.order e) =
        .ok (some (line 0 0 none false p'.1 p'.2, ticked O (e + 1)), loss)) ∧ p'.1.get 0 0 0 = -3 * p.1.get 0 0 0) (by
      rintro e ⟨pw, pb⟩ ⟨hpw, hpb⟩
      obtain ⟨gw, gb, h1, h2, h3, h4⟩ := line_batch c 0 0 none false (ticked O (e + 1)) (ho (e + 1)).1 (Nat.le_refl 1) hpw hpb hd
      refine ⟨(along pw gw (-(ticked O (e + 1)).weights.rate), along pb gb (-(ticked O (e + 1)).bias.rate)), ⟨hpw, hpb⟩, ?_, ?_⟩
      · rw [hg e]
        refine epoch_line c 0 0 none false (Nat.le_refl 1) (ticked O e) (ho e).1 hpw hpb 1 (Nat.le_refl 1) _ [[(one 20, one 0)]] (one_batch (recs := [(one 20, one 0)]) (by simp))
          (by simpa using hd) _ ?_
        show List.foldlM (m := Option) _ _ [_] = _
        rw [List.foldlM_cons]
        have h3' : batch (line 0 0 none false pw pb) (Optimizer.tick (ticked O e)) (records c [(one 20, one 0)]) = _ := h3
        rw [h3']
        rfl
      · have h5 := h4 (one 1) ⟨1, 1, 1, fun _ _ _ => 0⟩ ⟨rfl, rfl, rfl⟩ ⟨rfl, rfl, rfl⟩
        have a1 : pw.rows = 1 := hpw.1
        have a2 : pw.cols = 1 := hpw.2.1
        simp [slope, dot, output, one, a1, a2, h1.1, h1.2.1, h2.1, h2.2.1] at h5
        show pw.get 0 0 0 + -(ticked O (e + 1)).weights.rate * gw.get 0 0 0 = _
        rw [(ho (e + 1)).2, ← h5]
        ring) (one 1, one 0) ⟨⟨rfl, rfl, rfl⟩, ⟨rfl, rfl, rfl⟩⟩
  intro e
  refine ⟨(f e).1, (f e).2, ticked O e, ?_, ?_⟩
  · induction e with
    | zero => simp [Training.states, f0, ticked]
    | succ e ih =>
      obtain ⟨loss, hl⟩ := (fR e).1
      simp only [Training.states, ih, hl]
  · have h1 : (f e).1.get 0 0 0 = (-3) ^ e := by
      induction e with
      | zero => simp [f0, one]
      | succ e ih => rw [(fR e).2, ih, pow_succ]; ring
    have hI := fI e
    simp [fit, squares, output, norm2, one, hI.1.1, hI.1.2.1, h1]
    rw [mul_pow, ← pow_mul, mul_comm e 2, pow_mul]
    norm_num

/-! ### The hypotheses can be met -/

/-- Two records that no weights and biases fit exactly, the settings that are used if none are given (C125_partial, C125_limit_partial). -/
example : ∃ (s : Option ℝ) (o : Optimizer.Opt ℝ) (w b : Tensor ℝ) (data : List (Tensor ℝ × Tensor ℝ)) (g : Training.Setting (Tensor ℝ × Tensor ℝ) ℝ),
    0 < s.getD 0 ∧ o.kind = .mbgd ∧ 0 < o.weights.rate ∧ 0 < o.bias.rate ∧ Matrix 1 1 w ∧ Matrix 1 1 b ∧ data.length = 2 ∧ Records 1 1 data ∧
    reach true (s.getD 0) o.weights.rate o.bias.rate 1 data ≤ 1 / 2 ∧ (∀ e, (g.order e).Perm data) ∧ g.order 0 ≠ g.order 1 := by
  refine ⟨some (2 / 100), Optimizer.create .mbgd Optimizer.Hyper.code (5 / 1000) (1 / 1000), one 1, one 0, [(one 1, one 2), (one 1, one 3)],
    ⟨fun e => if e = 0 then [(one 1, one 2), (one 1, one 3)] else [(one 1, one 3), (one 1, one 2)], [], ⟨0, 0, 0, .fin 0, .fin 0, 0, .fin 0⟩, false, fun _ => 0⟩,
    by simp, rfl, by simp [Optimizer.create], by simp [Optimizer.create], ⟨rfl, rfl, rfl⟩, ⟨rfl, rfl, rfl⟩, rfl, ⟨by simp, by simp [Matrix, one]⟩, ?_, ?_, ?_⟩
  · refine C125_default true 1 _ ?_
    simp [power, one]
  · intro e
    by_cases h : e = 0
    · simp [h]
    · simp only [h, if_false]
      exact List.Perm.swap _ _ _
  · intro h
    have h1 := congrArg (fun l => l.head?.map fun d : Tensor ℝ × Tensor ℝ => d.2.get 0 0 0) h
    simp [one] at h1

/-- Three records on a line, in batches of two (C125_batches_partial). -/
example : ∃ (o : Optimizer.Opt ℝ) (w b : Tensor ℝ) (data : List (Tensor ℝ × Tensor ℝ)) (qw qb : Tensor ℝ),
    o.kind = .mbgd ∧ 0 < o.weights.rate ∧ 0 < o.bias.rate ∧ Matrix 1 1 w ∧ Matrix 1 1 b ∧ data.length = 3 ∧ Records 1 1 data ∧
    (∀ d ∈ data, reach true 0 o.weights.rate o.bias.rate 1 [d] ≤ 1 / 2) ∧ Matrix 1 1 qw ∧ Matrix 1 1 qb ∧
    (∀ d ∈ data, squares true qw qb d = 0) ∧ 0 < fit true 0 data w b := by
  refine ⟨Optimizer.create .mbgd Optimizer.Hyper.code (5 / 1000) (1 / 1000), one 0, one 0, [(one 1, one 3), (one 2, one 5), (one 3, one 7)], one 2, one 1,
    rfl, by simp [Optimizer.create], by simp [Optimizer.create], ⟨rfl, rfl, rfl⟩, ⟨rfl, rfl, rfl⟩, rfl, ⟨by simp, by simp [Matrix, one]⟩, ?_,
    ⟨rfl, rfl, rfl⟩, ⟨rfl, rfl, rfl⟩, ?_, ?_⟩
  · simp [reach, power, one, Optimizer.create]
    norm_num
  · simp [squares, output, one]
    norm_num
  · simp [fit, squares, output, norm2, one]
    norm_num

end Verif.Regression
