import Verif.Model.Optimizer
import Verif.Props.C36_C40_Statistics
import Mathlib.Algebra.BigOperators.Group.Finset.Basic
import Mathlib.Algebra.BigOperators.Ring.Finset
import Mathlib.Algebra.Order.Field.Basic
import Mathlib.Data.List.GetD
import Mathlib.Tactic.FieldSimp
import Mathlib.Tactic.Linarith
import Mathlib.Tactic.Positivity

/-!
C70. The optimizers over any sequence of calls. Exact arithmetic in an ordered field.
-/
namespace Verif.Optimizer
open Verif Views

set_option linter.unusedSectionVars false

variable {F : Type} [Field F] [LinearOrder F] [IsStrictOrderedRing F]

/-! ### Specification -/

/-- A use of an optimizer: a change of the weights (`weight = true`) or of the bias of a layer, a registration, a new epoch. -/
inductive Call (F : Type) where
  | change (weight : Bool) (id : Nat) (params gradient : Tensor F)
  | register
  | tick

/-- What can be observed of a change: for which half and id, the learning rates before and after, parameters, gradient and new parameters. -/
structure Entry (F : Type) where
  weight : Bool
  id : Nat
  before : F
  after : F
  params : Tensor F
  gradient : Tensor F
  updated : Tensor F

/-- The half of the state used for weights or for biases. -/
def half (o : Opt F) (weight : Bool) : Half F := if weight then o.weights else o.bias

/-- One call. -/
def call (sqrt : F → F) (o : Opt F) : Call F → Option (Opt F × List (Entry F))
  | .change true id p g => (calculateWeightsChange o sqrt id p g).map fun r => (r.2, [⟨true, id, o.weights.rate, r.2.weights.rate, p, g, r.1⟩])
  | .change false id p g => (calculateBiasChange o sqrt id p g).map fun r => (r.2, [⟨false, id, o.bias.rate, r.2.bias.rate, p, g, r.1⟩])
  | .register => some ((register o).2, [])
  | .tick => some (tick o, [])

/-- Any sequence of calls; `none` if one of them throws. -/
def run (sqrt : F → F) (o : Opt F) : List (Call F) → Option (Opt F × List (Entry F))
  | [] => some (o, [])
  | c :: cs => (call sqrt o c).bind fun r => (run sqrt r.1 cs).map fun r' => (r'.1, r.2 ++ r'.2)

/-- The exponentially weighted sum `Σ μ^(n-1-i) xᵢ`. -/
def expSum (μ : F) (xs : List F) : F := ∑ i ∈ Finset.range xs.length, μ ^ (xs.length - 1 - i) * xs.getD i 0

/-- The entries of one layer's weights or bias. -/
def mine (log : List (Entry F)) (w : Bool) (id : Nat) : List (Entry F) := log.filter fun e => e.weight == w && e.id == id

/-! ### Lemmas -/

theorem expSum_snoc (μ : F) (xs : List F) (x : F) : expSum μ (xs ++ [x]) = expSum μ xs * μ + x := by
  unfold expSum
  rw [List.length_append, List.length_singleton, Finset.sum_range_succ, Finset.sum_mul]
  congr 1
  · refine Finset.sum_congr rfl fun i hi => ?_
    have hi' : i < xs.length := Finset.mem_range.mp hi
    rw [show xs.length + 1 - 1 - i = (xs.length - 1 - i) + 1 by omega, pow_succ, List.getD_append _ _ _ _ hi']
    ring
  · rw [show xs.length + 1 - 1 - xs.length = 0 by omega, pow_zero, one_mul]
    simp [List.getD_eq_getElem?_getD]

omit [IsStrictOrderedRing F] in
theorem find_put (m : Store F) (id : Nat) (t : Tensor F) (j : Nat) : (m.put id t).find j = if j = id then some t else m.find j := by
  unfold Store.put Store.find
  split
  · rename_i hany
    induction m with
    | nil => simp at hany
    | cons e es ih =>
      by_cases he : e.1 = id
      · by_cases hj : j = id
        · simp [he, hj]
        · have hne : ¬ id = j := fun h => hj h.symm
          have h1 : (e.1 == j) = false := by simp [he, hne]
          by_cases hes : es.any (fun e => e.1 == id)
          · have := ih hes
            simp only [hj, if_false] at this ⊢
            simpa [List.find?_cons, he, hne, h1] using this
          · have hmap : es.map (fun e => if e.1 == id then (id, t) else e) = es := by
              rw [List.map_congr_left (g := fun e => e), List.map_id']
              intro x hx
              have hx0 : ¬ x.1 = id := by
                intro h0; exact hes (List.any_eq_true.mpr ⟨x, hx, by simp [h0]⟩)
              simp [hx0]
            rw [List.map_cons, hmap]
            simp [he, hne, hj]
      · have hes : es.any (fun e => e.1 == id) := by simpa [he] using hany
        have := ih hes
        by_cases hj : e.1 = j
        · have hji : ¬ j = id := fun h => he (hj.trans h)
          simp [hj, hji]
        · by_cases hji : j = id
          · subst hji
            have hz := this
            simp only [if_true] at hz ⊢
            simpa [List.find?_cons, he] using hz
          · simp only [hji, if_false] at this ⊢
            simpa [List.find?_cons, he, hj] using this
  · rename_i hany
    have hnone : m.find? (fun e => e.1 == id) = none := by
      rw [List.find?_eq_none]
      intro x hx h
      exact hany (List.any_eq_true.mpr ⟨x, hx, h⟩)
    rw [List.find?_append]
    by_cases hj : j = id
    · subst hj; rw [hnone]; simp
    · have hne : ¬ id = j := fun h => hj h.symm
      simp [hj, hne]

omit [IsStrictOrderedRing F] in
theorem zip_some {op : F → F → F} {a b v : Tensor F} (h : zip op a b = some v) :
    v = ⟨a.rows, a.cols, a.chans, fun r c k => op (a.get r c k) (b.get r c k)⟩ := by
  unfold zip at h
  split at h
  · cases h
  · exact (Option.some.inj h).symm

/-! ### Plain gradient descent -/

/-- C70. Plain gradient descent: over any sequence of calls the rates never change and every change is `- rate * gradient`. -/
theorem C70_sgd (sqrt : F → F) (h : Hyper F) (rate biasRate : F) (calls : List (Call F)) (o : Opt F) (log : List (Entry F))
    (hr : run sqrt (create .mbgd h rate biasRate) calls = some (o, log)) :
    ∀ e ∈ log, e.before = e.after ∧ (e.before = if e.weight then rate else biasRate) ∧
      ∀ r c k, e.updated.get r c k = e.params.get r c k - e.before * e.gradient.get r c k := by
  have gen : ∀ (calls : List (Call F)) (o0 o : Opt F) (log : List (Entry F)), o0.kind = .mbgd → o0.weights.rate = rate → o0.bias.rate = biasRate →
      run sqrt o0 calls = some (o, log) → ∀ e ∈ log, e.before = e.after ∧ (e.before = if e.weight then rate else biasRate) ∧
      ∀ r c k, e.updated.get r c k = e.params.get r c k - e.before * e.gradient.get r c k := by
    intro calls
    induction calls with
    | nil => intro o0 o log _ _ _ hr; simp only [run, Option.some.injEq, Prod.mk.injEq] at hr; rw [← hr.2]; simp
    | cons c cs ih =>
      intro o0 o log hk hw hb hr
      simp only [run] at hr
      obtain ⟨⟨o1, es⟩, h1, hr⟩ := Option.bind_eq_some_iff.mp hr
      obtain ⟨⟨o2, es2⟩, h2, hr⟩ := Option.map_eq_some_iff.mp hr
      simp only [Prod.mk.injEq] at hr
      obtain ⟨rfl, rfl⟩ := hr
      have key : o1.kind = .mbgd ∧ o1.weights.rate = rate ∧ o1.bias.rate = biasRate ∧ ∀ e ∈ es, e.before = e.after ∧
          (e.before = if e.weight then rate else biasRate) ∧
          ∀ r c k, e.updated.get r c k = e.params.get r c k - e.before * e.gradient.get r c k := by
        cases c with
        | register =>
          simp only [call, register, hk, Option.some.injEq, Prod.mk.injEq] at h1
          obtain ⟨rfl, rfl⟩ := h1
          exact ⟨hk, hw, hb, by simp⟩
        | tick =>
          simp only [call, tick, Option.some.injEq, Prod.mk.injEq] at h1
          obtain ⟨rfl, rfl⟩ := h1
          exact ⟨hk, hw, hb, by simp⟩
        | change w id p g =>
          cases w with
          | true =>
            simp only [call, calculateWeightsChange, change, hk, Option.map_map, Option.map_eq_some_iff, Prod.mk.injEq, Function.comp] at h1
            obtain ⟨u, hu, ho1, rfl⟩ := h1
            subst ho1
            refine ⟨rfl, hw, hb, ?_⟩
            intro e he
            simp only [List.mem_singleton] at he
            subst he
            refine ⟨rfl, by simpa using hw, fun r c k => ?_⟩
            rw [zip_some hu]; simp only [map]; ring
          | false =>
            simp only [call, calculateBiasChange, change, hk, Option.map_map, Option.map_eq_some_iff, Prod.mk.injEq, Function.comp] at h1
            obtain ⟨u, hu, ho1, rfl⟩ := h1
            subst ho1
            refine ⟨rfl, hw, hb, ?_⟩
            intro e he
            simp only [List.mem_singleton] at he
            subst he
            refine ⟨rfl, by simpa using hb, fun r c k => ?_⟩
            rw [zip_some hu]; simp only [map]; ring
      intro e he
      rcases List.mem_append.mp he with he | he
      · exact key.2.2.2 e he
      · exact ih o1 o2 es2 key.1 key.2.1 key.2.2.1 h2 e he
  exact gen calls _ o log rfl rfl rfl hr

/-! ### Momentum and Adam: an invariant of one half of the state -/

/-- The first moment kept for each id is the exponentially weighted sum over the history of that id; `x` is what each entry contributes. -/
def Holds (μ : F) (x : Entry F → Nat → Nat → Nat → F) (m : Store F) (w : Bool) (log : List (Entry F)) : Prop :=
  ∀ id, (mine log w id = [] → m.find id = none) ∧
    (mine log w id ≠ [] → ∃ t, m.find id = some t ∧ ∀ r c k, t.get r c k = expSum μ ((mine log w id).map fun e => x e r c k))

omit [IsStrictOrderedRing F] [LinearOrder F] in
theorem mine_snoc (log : List (Entry F)) (e : Entry F) (w : Bool) (id : Nat) :
    mine (log ++ [e]) w id = if e.weight = w ∧ e.id = id then mine log w id ++ [e] else mine log w id := by
  unfold mine
  rw [List.filter_append]
  by_cases h : e.weight = w ∧ e.id = id
  · simp [h]
  · rw [if_neg h, List.filter_cons_of_neg]
    · simp
    · simp only [Bool.and_eq_true, beq_iff_eq]; exact h

theorem Holds.other {μ : F} {x} {m : Store F} {w : Bool} {log : List (Entry F)} (h : Holds μ x m w log) {e : Entry F} (he : e.weight ≠ w) :
    Holds μ x m w (log ++ [e]) := by
  intro id
  rw [mine_snoc, if_neg (fun h => he h.1)]
  exact h id

theorem Holds.put {μ : F} {x} {m : Store F} {w : Bool} {log : List (Entry F)} (h : Holds μ x m w log) {e : Entry F} (he : e.weight = w) (t : Tensor F)
    (ht : ∀ r c k, t.get r c k = ((m.find e.id).elim 0 fun old => old.get r c k) * μ + x e r c k) : Holds μ x (m.put e.id t) w (log ++ [e]) := by
  intro id
  rw [mine_snoc, find_put]
  by_cases hid : id = e.id
  · subst hid
    rw [if_pos ⟨he, rfl⟩, if_pos rfl]
    refine ⟨fun h0 => by simp at h0, fun _ => ⟨t, rfl, fun r c k => ?_⟩⟩
    rw [List.map_append, List.map_singleton, expSum_snoc, ht]
    congr 2
    by_cases hm : mine log w e.id = []
    · rw [(h e.id).1 hm, hm]; simp [expSum]
    · obtain ⟨old, ho, hv⟩ := (h e.id).2 hm
      rw [ho]; simp only [Option.elim_some]; exact hv r c k
  · rw [if_neg (fun hh => hid hh.2.symm), if_neg hid]
    exact h id

/-- The momentum optimizer: one change. -/
theorem sgdm_step {h : Hyper F} {sqrt : F → F} {decay : Bool} {step : Nat} {s s' : Half F} {id : Nat} {p g u : Tensor F}
    (hc : sgdmChange h sqrt decay step s id p g = some (u, s')) :
    ∃ t, s'.m = (if (s.m.find id).isSome then s.m else s.m.put id (zeros p)).put id t ∧
      (∀ r c k, t.get r c k = ((s.m.find id).elim 0 fun old => old.get r c k) * h.momentum + g.get r c k * s.rate) ∧
      (∀ r c k, u.get r c k = p.get r c k - t.get r c k) ∧
      (s'.rate = s.rate ∨ (decay = true ∧ h.smallest ≤ h.largest → h.smallest ≤ s'.rate ∧ s'.rate ≤ h.largest)) ∧
      (decay = false → s'.rate = s.rate) := by
  unfold sgdmChange at hc
  dsimp only at hc
  obtain ⟨m0, hm0⟩ : ∃ m0, m0 = (if (s.m.find id).isSome then s.m else s.m.put id (zeros p)) := ⟨_, rfl⟩
  rw [← hm0] at hc ⊢
  obtain ⟨prev, hprev, hc⟩ := Option.bind_eq_some_iff.mp hc
  obtain ⟨t, ht, hc⟩ := Option.bind_eq_some_iff.mp hc
  obtain ⟨u', hu, hc⟩ := Option.map_eq_some_iff.mp hc
  have hget : ∀ r c k, prev.get r c k = (s.m.find id).elim 0 fun old => old.get r c k := by
    intro r c k
    cases hf : s.m.find id with
    | none =>
      rw [hf] at hm0
      simp only [Option.isSome_none, Bool.false_eq_true, if_false] at hm0
      rw [hm0, find_put, if_pos rfl, Option.some.injEq] at hprev
      rw [← hprev]; rfl
    | some old =>
      rw [hf] at hm0
      simp only [Option.isSome_some, if_true] at hm0
      rw [hm0, hf, Option.some.injEq] at hprev
      rw [← hprev]; rfl
  have ht' : ∀ r c k, t.get r c k = ((s.m.find id).elim 0 fun old => old.get r c k) * h.momentum + g.get r c k * s.rate := by
    intro r c k
    rw [zip_some ht, ← hget]; rfl
  have hbounds : h.smallest ≤ h.largest → ∀ x, h.smallest ≤ bounded h x ∧ bounded h x ≤ h.largest := by
    intro hl x
    unfold bounded
    dsimp only
    split <;> split
    · rename_i h1 h2; exact ⟨h1.le, h2.le⟩
    · exact ⟨hl, le_refl _⟩
    · rename_i h1 h2; exact ⟨le_refl _, h2.le⟩
    · exact ⟨hl, le_refl _⟩
  split at hc
  · rename_i hcond
    simp only [Prod.mk.injEq] at hc
    obtain ⟨rfl, rfl⟩ := hc
    simp only [Bool.and_eq_true, decide_eq_true_eq] at hcond
    refine ⟨t, rfl, ht', fun r c k => by rw [zip_some hu], Or.inr fun hl => hbounds hl.2 _, fun hd => ?_⟩
    rw [hd] at hcond; simp at hcond
  · simp only [Prod.mk.injEq] at hc
    obtain ⟨rfl, rfl⟩ := hc
    exact ⟨t, rfl, ht', fun r c k => by rw [zip_some hu], Or.inl rfl, fun _ => rfl⟩

/-- Adam: one change. -/
theorem adam_step {h : Hyper F} {sqrt : F → F} {decay : Bool} {step : Nat} {s s' : Half F} {id : Nat} {p g u : Tensor F}
    (hv : (s.m.find id).isSome = (s.v.find id).isSome)
    (hc : adamChange h sqrt decay step s id p g = some (u, s')) :
    ∃ a b, s'.m = (if (s.m.find id).isSome then s.m else s.m.put id (zeros p)).put id a ∧
      s'.v = (if (s.m.find id).isSome then s.v else s.v.put id (zeros p)).put id b ∧
      (∀ r c k, a.get r c k = ((s.m.find id).elim 0 fun old => old.get r c k) * h.beta1 + g.get r c k * (1 - h.beta1)) ∧
      (∀ r c k, b.get r c k = ((s.v.find id).elim 0 fun old => old.get r c k) * h.beta2 + g.get r c k ^ 2 * (1 - h.beta2)) ∧
      (∀ r c k, u.get r c k = p.get r c k + a.get r c k * -s'.rate * (1 / (sqrt (b.get r c k) + h.eps + h.inverseEps))) ∧
      (s'.rate = s.rate ∨ (decay = true ∧ h.smallest ≤ h.largest → h.smallest ≤ s'.rate ∧ s'.rate ≤ h.largest)) ∧
      (decay = false → s'.rate = s.rate) := by
  unfold adamChange at hc
  dsimp only at hc
  obtain ⟨s1, hs1⟩ : ∃ s1, s1 = (if (s.m.find id).isSome then s else { s with m := s.m.put id (zeros p), v := s.v.put id (zeros p) }) := ⟨_, rfl⟩
  rw [← hs1] at hc
  have hm1 : s1.m = (if (s.m.find id).isSome then s.m else s.m.put id (zeros p)) := by rw [hs1]; split <;> rfl
  have hv1 : s1.v = (if (s.m.find id).isSome then s.v else s.v.put id (zeros p)) := by rw [hs1]; split <;> rfl
  have hr1 : s1.rate = s.rate := by rw [hs1]; split <;> rfl
  obtain ⟨s2, hs2⟩ : ∃ s2, s2 = (if (decay && decide (s1.last < step)) = true then
      { s1 with last := step, rate := demon h sqrt step (average s1.m) (average s1.v) } else s1) := ⟨_, rfl⟩
  rw [← hs2] at hc
  have hm2 : s2.m = s1.m := by rw [hs2]; split <;> rfl
  have hv2 : s2.v = s1.v := by rw [hs2]; split <;> rfl
  have hbounds : h.smallest ≤ h.largest → ∀ x, h.smallest ≤ bounded h x ∧ bounded h x ≤ h.largest := by
    intro hl x
    unfold bounded
    dsimp only
    split <;> split
    · rename_i h1 h2; exact ⟨h1.le, h2.le⟩
    · exact ⟨hl, le_refl _⟩
    · rename_i h1 h2; exact ⟨le_refl _, h2.le⟩
    · exact ⟨hl, le_refl _⟩
  have hr2 : (s2.rate = s.rate ∨ (decay = true ∧ h.smallest ≤ h.largest → h.smallest ≤ s2.rate ∧ s2.rate ≤ h.largest)) ∧
      (decay = false → s2.rate = s.rate) := by
    rw [hs2]
    split
    · rename_i hcond
      simp only [Bool.and_eq_true, decide_eq_true_eq] at hcond
      exact ⟨Or.inr fun hl => hbounds hl.2 _, fun hd => by rw [hd] at hcond; simp at hcond⟩
    · exact ⟨Or.inl hr1, fun _ => hr1⟩
  unfold adamUpdate at hc
  obtain ⟨m, hm, hc⟩ := Option.bind_eq_some_iff.mp hc
  obtain ⟨v, hvv, hc⟩ := Option.bind_eq_some_iff.mp hc
  obtain ⟨a, ha, hc⟩ := Option.bind_eq_some_iff.mp hc
  obtain ⟨b, hb, hc⟩ := Option.bind_eq_some_iff.mp hc
  obtain ⟨q, hq, hc⟩ := Option.bind_eq_some_iff.mp hc
  obtain ⟨u', hu, hc⟩ := Option.map_eq_some_iff.mp hc
  simp only [Prod.mk.injEq] at hc
  obtain ⟨rfl, rfl⟩ := hc
  rw [hm2, hm1] at hm
  rw [hv2, hv1] at hvv
  have hgm : ∀ r c k, m.get r c k = (s.m.find id).elim 0 fun old => old.get r c k := by
    intro r c k
    cases hf : s.m.find id with
    | none =>
      rw [hf] at hm
      simp only [Option.isSome_none, Bool.false_eq_true, if_false, find_put, if_true, Option.some.injEq] at hm
      rw [← hm]; rfl
    | some old =>
      rw [hf] at hm
      simp only [Option.isSome_some, if_true] at hm
      rw [hf, Option.some.injEq] at hm
      rw [← hm]; rfl
  have hgv : ∀ r c k, v.get r c k = (s.v.find id).elim 0 fun old => old.get r c k := by
    intro r c k
    rw [hv] at hvv
    cases hf : s.v.find id with
    | none =>
      rw [hf] at hvv
      simp only [Option.isSome_none, Bool.false_eq_true, if_false, find_put, if_true, Option.some.injEq] at hvv
      rw [← hvv]; rfl
    | some old =>
      rw [hf] at hvv
      simp only [Option.isSome_some, if_true] at hvv
      rw [hf, Option.some.injEq] at hvv
      rw [← hvv]; rfl
  refine ⟨a, b, by show (s2.m.put id a) = _; rw [hm2, hm1], by show (s2.v.put id b) = _; rw [hv2, hv1], ?_, ?_, ?_, hr2⟩
  · intro r c k; rw [← hgm, zip_some ha]; rfl
  · intro r c k; rw [← hgv, zip_some hb]; rfl
  · intro r c k; rw [zip_some hu, zip_some hq]; rfl

theorem Holds.put_zero {μ : F} {x} {m : Store F} {w : Bool} {log : List (Entry F)} (h : Holds μ x m w log) {e : Entry F} (he : e.weight = w)
    (flag : Bool) (z t : Tensor F) (ht : ∀ r c k, t.get r c k = ((m.find e.id).elim 0 fun old => old.get r c k) * μ + x e r c k) :
    Holds μ x ((if flag = true then m else m.put e.id z).put e.id t) w (log ++ [e]) := by
  have h1 := h.put he t ht
  intro id
  have h2 := h1 id
  have : ((if flag = true then m else m.put e.id z).put e.id t).find id = (m.put e.id t).find id := by
    rw [find_put, find_put]
    by_cases hid : id = e.id
    · rw [if_pos hid, if_pos hid]
    · rw [if_neg hid, if_neg hid]
      split
      · rfl
      · rw [find_put, if_neg hid]
  rw [this]; exact h2

/-- What one half of the stores of a momentum or Adam optimizer holds after the calls in `log`. -/
def HalfInvariant (kind : Kind) (h : Hyper F) (s : Half F) (w : Bool) (log : List (Entry F)) : Prop :=
  match kind with
  | .mbgd => True
  | .sgdm _ => Holds h.momentum (fun e r c k => e.gradient.get r c k * e.before) s.m w log
  | .adam _ => Holds h.beta1 (fun e r c k => e.gradient.get r c k * (1 - h.beta1)) s.m w log ∧
      Holds h.beta2 (fun e r c k => e.gradient.get r c k ^ 2 * (1 - h.beta2)) s.v w log

/-- Both halves. -/
def Invariant (kind : Kind) (h : Hyper F) (o : Opt F) (log : List (Entry F)) : Prop :=
  o.kind = kind ∧ o.hyper = h ∧ ∀ w, HalfInvariant kind h (half o w) w log

/-- What one new entry must satisfy, given the entries before it. -/
def Correct (kind : Kind) (h : Hyper F) (sqrt : F → F) (log : List (Entry F)) (e : Entry F) : Prop :=
  match kind with
  | .mbgd => True
  | .sgdm _ => ∀ r c k, e.updated.get r c k = e.params.get r c k -
      expSum h.momentum ((mine (log ++ [e]) e.weight e.id).map fun e => e.before * e.gradient.get r c k)
  | .adam _ => ∀ r c k, e.updated.get r c k = e.params.get r c k - e.after *
      ((1 - h.beta1) * expSum h.beta1 ((mine (log ++ [e]) e.weight e.id).map fun e => e.gradient.get r c k)) /
      (sqrt ((1 - h.beta2) * expSum h.beta2 ((mine (log ++ [e]) e.weight e.id).map fun e => e.gradient.get r c k ^ 2)) + h.eps + h.inverseEps)

theorem expSum_smul (μ a : F) (xs : List F) : expSum μ (xs.map (· * a)) = expSum μ xs * a := by
  induction xs using List.reverseRecOn with
  | nil => simp [expSum]
  | append_singleton xs x ih => rw [List.map_append, List.map_singleton, expSum_snoc, expSum_snoc, ih]; ring

theorem invariant_call {kind : Kind} {h : Hyper F} {sqrt : F → F} {o o' : Opt F} {log es : List (Entry F)} {c : Call F}
    (hi : Invariant kind h o log) (hc : call sqrt o c = some (o', es)) :
    Invariant kind h o' (log ++ es) ∧ (∀ e ∈ es, Correct kind h sqrt log e) ∧
      (∀ e ∈ es, (∀ d, kind ≠ .sgdm d ∧ kind ≠ .adam d) ∨ ∃ d, (kind = .sgdm d ∨ kind = .adam d) ∧
        (e.after = e.before ∨ (d = true ∧ h.smallest ≤ h.largest → h.smallest ≤ e.after ∧ e.after ≤ h.largest)) ∧
        (d = false → e.after = e.before)) := by
  obtain ⟨hk, hh, hi⟩ := hi
  cases c with
  | register =>
    simp only [call, Option.some.injEq, Prod.mk.injEq] at hc
    obtain ⟨rfl, rfl⟩ := hc
    have e1 : (register o).2.kind = o.kind ∧ (register o).2.hyper = o.hyper ∧ ∀ w, half (register o).2 w = half o w := by
      unfold register
      split <;> exact ⟨rfl, rfl, fun w => rfl⟩
    refine ⟨⟨e1.1.trans hk, e1.2.1.trans hh, fun w => ?_⟩, by simp, by simp⟩
    rw [List.append_nil, e1.2.2 w]; exact hi w
  | tick =>
    simp only [call, Option.some.injEq, Prod.mk.injEq] at hc
    obtain ⟨rfl, rfl⟩ := hc
    exact ⟨⟨hk, hh, fun w => by rw [List.append_nil]; exact hi w⟩, by simp, by simp⟩
  | change w id p g =>
    -- both halves go through `change`
    obtain ⟨u, s', hch, ho', hes⟩ : ∃ u s', change o sqrt (half o w) id p g = some (u, s') ∧
        (o'.kind = o.kind ∧ o'.hyper = o.hyper ∧ half o' w = s' ∧ half o' (!w) = half o (!w)) ∧
        es = [⟨w, id, (half o w).rate, s'.rate, p, g, u⟩] := by
      cases w with
      | true =>
        simp only [call, calculateWeightsChange, Option.map_map, Option.map_eq_some_iff, Prod.mk.injEq, Function.comp] at hc
        obtain ⟨⟨u, s'⟩, h1, h2, h3⟩ := hc
        refine ⟨u, s', h1, ?_, h3.symm⟩
        rw [← h2]; exact ⟨rfl, rfl, rfl, rfl⟩
      | false =>
        simp only [call, calculateBiasChange, Option.map_map, Option.map_eq_some_iff, Prod.mk.injEq, Function.comp] at hc
        obtain ⟨⟨u, s'⟩, h1, h2, h3⟩ := hc
        refine ⟨u, s', h1, ?_, h3.symm⟩
        rw [← h2]; exact ⟨rfl, rfl, rfl, rfl⟩
    obtain ⟨ok, oh, hs', hother⟩ := ho'
    subst hes
    obtain ⟨e, hedef⟩ : ∃ e : Entry F, e = ⟨w, id, (half o w).rate, s'.rate, p, g, u⟩ := ⟨_, rfl⟩
    rw [← hedef]
    have ew : e.weight = w := by rw [hedef]
    have eid : e.id = id := by rw [hedef]
    have eb : e.before = (half o w).rate := by rw [hedef]
    have ea : e.after = s'.rate := by rw [hedef]
    have eg : e.gradient = g := by rw [hedef]
    have ep : e.params = p := by rw [hedef]
    have eu : e.updated = u := by rw [hedef]
    have hw' : ∀ w', w' = w ∨ w' = !w := by intro w'; cases w <;> cases w' <;> simp
    unfold change at hch
    rw [hk] at hch
    cases kind with
    | mbgd => exact ⟨⟨ok.trans hk, oh.trans hh, fun _ => trivial⟩, by intro e he; trivial, by intro e he; left; intro d; exact ⟨by simp, by simp⟩⟩
    | sgdm decay =>
      simp only at hch
      rw [hh] at hch
      obtain ⟨t, hm, ht, hu, hrate, hfix⟩ := sgdm_step hch
      have hold : Holds h.momentum (fun e r c k => e.gradient.get r c k * e.before) (half o w).m w log := hi w
      have hnew : Holds h.momentum (fun e r c k => e.gradient.get r c k * e.before) s'.m w (log ++ [e]) := by
        have := hold.put_zero ew ((half o w).m.find id).isSome (zeros p) t (by rw [eid, eg, eb]; exact ht)
        rw [eid] at this
        rw [hm]; exact this
      refine ⟨⟨ok.trans hk, oh.trans hh, fun w' => ?_⟩, ?_, ?_⟩
      · rcases hw' w' with rfl | rfl
        · rw [hs']; exact hnew
        · show Holds _ _ (half o' (!w)).m _ _
          rw [hother]
          exact Holds.other (hi (!w)) (by rw [ew]; cases w <;> simp)
      · intro e1 he1
        rw [List.mem_singleton] at he1
        subst he1
        intro r c k
        rw [eu, ep, hu]
        congr 1
        have hne : mine (log ++ [e1]) w e1.id ≠ [] := by rw [mine_snoc, if_pos ⟨ew, rfl⟩]; simp
        obtain ⟨t', hf, hv⟩ := (hnew e1.id).2 hne
        rw [hm, eid, find_put, if_pos rfl, Option.some.injEq] at hf
        rw [hf, hv, ew]
        congr 1
        apply List.map_congr_left
        intro x _; ring
      · intro e1 he1
        rw [List.mem_singleton] at he1
        subst he1
        right
        refine ⟨decay, Or.inl rfl, ?_, ?_⟩
        · rw [ea, eb]; exact hrate
        · rw [ea, eb]; exact hfix
    | adam decay =>
      simp only at hch
      rw [hh] at hch
      have hold : Holds h.beta1 (fun e r c k => e.gradient.get r c k * (1 - h.beta1)) (half o w).m w log ∧
        Holds h.beta2 (fun e r c k => e.gradient.get r c k ^ 2 * (1 - h.beta2)) (half o w).v w log := hi w
      have hsome : ((half o w).m.find id).isSome = ((half o w).v.find id).isSome := by
        by_cases hm : mine log w id = []
        · rw [(hold.1 id).1 hm, (hold.2 id).1 hm]
        · obtain ⟨a, ha, _⟩ := (hold.1 id).2 hm
          obtain ⟨b, hb, _⟩ := (hold.2 id).2 hm
          rw [ha, hb]; rfl
      obtain ⟨a, b, hm, hv, hta, htb, hu, hrate, hfix⟩ := adam_step hsome hch
      have hnew1 : Holds h.beta1 (fun e r c k => e.gradient.get r c k * (1 - h.beta1)) s'.m w (log ++ [e]) := by
        have := hold.1.put_zero ew ((half o w).m.find id).isSome (zeros p) a (by rw [eid, eg]; exact hta)
        rw [eid] at this
        rw [hm]; exact this
      have hnew2 : Holds h.beta2 (fun e r c k => e.gradient.get r c k ^ 2 * (1 - h.beta2)) s'.v w (log ++ [e]) := by
        have := hold.2.put_zero ew ((half o w).m.find id).isSome (zeros p) b (by rw [eid, eg]; exact htb)
        rw [eid] at this
        rw [hv]; exact this
      refine ⟨⟨ok.trans hk, oh.trans hh, fun w' => ?_⟩, ?_, ?_⟩
      · rcases hw' w' with rfl | rfl
        · rw [hs']; exact ⟨hnew1, hnew2⟩
        · show Holds _ _ (half o' (!w)).m _ _ ∧ Holds _ _ (half o' (!w)).v _ _
          rw [hother]
          exact ⟨Holds.other (hi (!w)).1 (by rw [ew]; cases w <;> simp), Holds.other (hi (!w)).2 (by rw [ew]; cases w <;> simp)⟩
      · intro e1 he1
        rw [List.mem_singleton] at he1
        subst he1
        intro r c k
        have hne : mine (log ++ [e1]) w e1.id ≠ [] := by rw [mine_snoc, if_pos ⟨ew, rfl⟩]; simp
        obtain ⟨a', hfa, hva⟩ := (hnew1 e1.id).2 hne
        obtain ⟨b', hfb, hvb⟩ := (hnew2 e1.id).2 hne
        rw [hm, eid, find_put, if_pos rfl, Option.some.injEq] at hfa
        rw [hv, eid, find_put, if_pos rfl, Option.some.injEq] at hfb
        have ea1 : a.get r c k = (1 - h.beta1) * expSum h.beta1 ((mine (log ++ [e1]) e1.weight e1.id).map fun e => e.gradient.get r c k) := by
          rw [hfa, hva, ew, mul_comm, ← expSum_smul, List.map_map]; rfl
        have eb1 : b.get r c k = (1 - h.beta2) * expSum h.beta2 ((mine (log ++ [e1]) e1.weight e1.id).map fun e => e.gradient.get r c k ^ 2) := by
          rw [hfb, hvb, ew, mul_comm, ← expSum_smul, List.map_map]; rfl
        rw [← ea1, ← eb1, eu, ep, ea, hu]
        ring
      · intro e1 he1
        rw [List.mem_singleton] at he1
        subst he1
        right
        refine ⟨decay, Or.inr rfl, ?_, ?_⟩
        · rw [ea, eb]; exact hrate
        · rw [ea, eb]; exact hfix

/-- All entries of a run are correct with respect to the entries before them. -/
theorem run_correct {kind : Kind} {h : Hyper F} {sqrt : F → F} (calls : List (Call F)) : ∀ {o o' : Opt F} {done log : List (Entry F)},
    Invariant kind h o done → run sqrt o calls = some (o', log) →
    ∀ pre e post, log = pre ++ e :: post → Correct kind h sqrt (done ++ pre) e := by
  induction calls with
  | nil =>
    intro o o' done log _ hr pre e post hl
    simp only [run, Option.some.injEq, Prod.mk.injEq] at hr
    rw [hl] at hr; simp at hr
  | cons c cs ih =>
    intro o o' done log hi hr pre e post hl
    simp only [run] at hr
    obtain ⟨⟨o1, es⟩, h1, hr⟩ := Option.bind_eq_some_iff.mp hr
    obtain ⟨⟨o2, es2⟩, h2, hr⟩ := Option.map_eq_some_iff.mp hr
    simp only [Prod.mk.injEq] at hr
    obtain ⟨rfl, rfl⟩ := hr
    obtain ⟨hi', hcor, _⟩ := invariant_call hi h1
    have hlen : es = [] ∨ ∃ x, es = [x] := by
      cases c with
      | register => simp only [call, Option.some.injEq, Prod.mk.injEq] at h1; exact Or.inl h1.2.symm
      | tick => simp only [call, Option.some.injEq, Prod.mk.injEq] at h1; exact Or.inl h1.2.symm
      | change w id p g =>
        right
        cases w <;> (simp only [call, Option.map_eq_some_iff, Prod.mk.injEq] at h1; obtain ⟨_, _, _, h⟩ := h1; exact ⟨_, h.symm⟩)
    rcases hlen with rfl | ⟨x, rfl⟩
    · rw [List.append_nil] at hi'
      exact ih hi' h2 pre e post (by simpa using hl)
    · cases pre with
      | nil =>
        simp only [List.nil_append, List.cons_append, List.cons.injEq] at hl
        obtain ⟨rfl, _⟩ := hl
        rw [List.append_nil]; exact hcor x (by simp)
      | cons y ys =>
        simp only [List.cons_append, List.cons.injEq] at hl
        obtain ⟨rfl, hl⟩ := hl
        have := ih hi' h2 ys e post hl
        rwa [List.append_assoc, List.singleton_append] at this

theorem invariant_create (kind : Kind) (h : Hyper F) (rate biasRate : F) : Invariant kind h (create kind h rate biasRate) [] := by
  refine ⟨rfl, rfl, fun w => ?_⟩
  cases kind with
  | mbgd => trivial
  | sgdm d => intro id; cases w <;> exact ⟨fun _ => rfl, fun h => absurd rfl h⟩
  | adam d => exact ⟨by intro id; cases w <;> exact ⟨fun _ => rfl, fun h => absurd rfl h⟩, by intro id; cases w <;> exact ⟨fun _ => rfl, fun h => absurd rfl h⟩⟩

/-! ### C70 -/

/-- C70. Momentum: in any sequence of calls for any number of layers, a change subtracts the exponentially weighted sum of `rate * gradient` over the
history of the same layer's weights (or bias) alone. -/
theorem C70_momentum (sqrt : F → F) (h : Hyper F) (decay : Bool) (rate biasRate : F) (calls : List (Call F)) (o : Opt F) (log : List (Entry F))
    (hr : run sqrt (create (.sgdm decay) h rate biasRate) calls = some (o, log)) (pre post : List (Entry F)) (e : Entry F) (hl : log = pre ++ e :: post)
    (r c k : Nat) :
    e.updated.get r c k = e.params.get r c k -
      expSum h.momentum ((mine (pre ++ [e]) e.weight e.id).map fun e => e.before * e.gradient.get r c k) := by
  have := run_correct calls (invariant_create (.sgdm decay) h rate biasRate) hr pre e post hl
  simpa using this r c k

/-- C70. Adam: likewise, with exponentially weighted sums of the gradients and of their squares. The bias correction of the published rule is missing
(`C70_adam_violated`). -/
theorem C70_adam_partial (sqrt : F → F) (h : Hyper F) (decay : Bool) (rate biasRate : F) (calls : List (Call F)) (o : Opt F) (log : List (Entry F))
    (hr : run sqrt (create (.adam decay) h rate biasRate) calls = some (o, log)) (pre post : List (Entry F)) (e : Entry F) (hl : log = pre ++ e :: post)
    (r c k : Nat) :
    e.updated.get r c k = e.params.get r c k - e.after *
      ((1 - h.beta1) * expSum h.beta1 ((mine (pre ++ [e]) e.weight e.id).map fun e => e.gradient.get r c k)) /
      (sqrt ((1 - h.beta2) * expSum h.beta2 ((mine (pre ++ [e]) e.weight e.id).map fun e => e.gradient.get r c k ^ 2)) + h.eps + h.inverseEps) := by
  have := run_correct calls (invariant_create (.adam decay) h rate biasRate) hr pre e post hl
  simpa using this r c k

/-- The learning rates seen by a run satisfy `Q` if the first ones do and every change keeps it. -/
theorem run_rates {kind : Kind} {h : Hyper F} {sqrt : F → F} (Q : Bool → F → Prop)
    (hQ : ∀ w x y, Q w x → (y = x ∨ ∃ d, (kind = .sgdm d ∨ kind = .adam d) ∧ d = true ∧ (h.smallest ≤ h.largest → h.smallest ≤ y ∧ y ≤ h.largest)) → Q w y)
    (calls : List (Call F)) : ∀ {o o' : Opt F} {done log : List (Entry F)}, Invariant kind h o done → (∀ w, Q w (half o w).rate) →
    run sqrt o calls = some (o', log) → (∀ w, Q w (half o' w).rate) ∧ ∀ e ∈ log, Q e.weight e.before ∧ Q e.weight e.after := by
  induction calls with
  | nil =>
    intro o o' done log _ hq hr
    simp only [run, Option.some.injEq, Prod.mk.injEq] at hr
    obtain ⟨rfl, rfl⟩ := hr
    exact ⟨hq, by simp⟩
  | cons c cs ih =>
    intro o o' done log hi hq hr
    simp only [run] at hr
    obtain ⟨⟨o1, es⟩, h1, hr⟩ := Option.bind_eq_some_iff.mp hr
    obtain ⟨⟨o2, es2⟩, h2, hr⟩ := Option.map_eq_some_iff.mp hr
    simp only [Prod.mk.injEq] at hr
    obtain ⟨rfl, rfl⟩ := hr
    obtain ⟨hi', _, hrate⟩ := invariant_call hi h1
    have key : (∀ w, Q w (half o1 w).rate) ∧ ∀ e ∈ es, Q e.weight e.before ∧ Q e.weight e.after := by
      cases c with
      | register =>
        simp only [call, Option.some.injEq, Prod.mk.injEq] at h1
        obtain ⟨rfl, rfl⟩ := h1
        refine ⟨fun w => ?_, by simp⟩
        have : half (register o).2 w = half o w := by unfold register; split <;> rfl
        rw [this]; exact hq w
      | tick =>
        simp only [call, Option.some.injEq, Prod.mk.injEq] at h1
        obtain ⟨rfl, rfl⟩ := h1
        exact ⟨hq, by simp⟩
      | change w id p g =>
        obtain ⟨u, s', hch, ⟨hs', hother⟩, hes⟩ : ∃ u s', change o sqrt (half o w) id p g = some (u, s') ∧
            (half o1 w = s' ∧ half o1 (!w) = half o (!w)) ∧ es = [⟨w, id, (half o w).rate, s'.rate, p, g, u⟩] := by
          cases w with
          | true =>
            simp only [call, calculateWeightsChange, Option.map_map, Option.map_eq_some_iff, Prod.mk.injEq, Function.comp] at h1
            obtain ⟨⟨u, s'⟩, g1, g2, g3⟩ := h1
            refine ⟨u, s', g1, ?_, g3.symm⟩
            rw [← g2]; exact ⟨rfl, rfl⟩
          | false =>
            simp only [call, calculateBiasChange, Option.map_map, Option.map_eq_some_iff, Prod.mk.injEq, Function.comp] at h1
            obtain ⟨⟨u, s'⟩, g1, g2, g3⟩ := h1
            refine ⟨u, s', g1, ?_, g3.symm⟩
            rw [← g2]; exact ⟨rfl, rfl⟩
        have hnew : Q w s'.rate := by
          apply hQ w _ _ (hq w)
          rcases hrate _ (by rw [hes]; exact List.mem_singleton.mpr rfl) with h0 | ⟨d, hd, h3, h4⟩
          · left
            have hk : kind = .mbgd := by
              cases kind with
              | mbgd => rfl
              | sgdm d => exact absurd rfl (h0 d).1
              | adam d => exact absurd rfl (h0 d).2
            unfold change at hch
            rw [hi.1, hk] at hch
            simp only [Option.map_eq_some_iff, Prod.mk.injEq] at hch
            obtain ⟨_, _, _, h⟩ := hch
            rw [← h]
          · cases d with
            | false => exact Or.inl (h4 rfl)
            | true =>
              rcases h3 with h3 | h3
              · exact Or.inl h3
              · exact Or.inr ⟨true, hd, rfl, fun hl => h3 ⟨rfl, hl⟩⟩
        refine ⟨fun w' => ?_, ?_⟩
        · rcases (by cases w <;> cases w' <;> simp : w' = w ∨ w' = !w) with rfl | rfl
          · rw [hs']; exact hnew
          · rw [hother]; exact hq _
        · intro e he
          rw [hes, List.mem_singleton] at he
          rw [he]; exact ⟨hq w, hnew⟩
    obtain ⟨k1, k2⟩ := ih hi' key.1 h2
    refine ⟨k1, fun e he => ?_⟩
    rcases List.mem_append.mp he with he | he
    · exact key.2 e he
    · exact k2 e he

/-- C70. Without decay the learning rates are the configured ones in every call. -/
theorem C70_rate_constant (sqrt : F → F) (h : Hyper F) (kind : Kind) (hk : kind ≠ .sgdm true ∧ kind ≠ .adam true) (rate biasRate : F)
    (calls : List (Call F)) (o : Opt F) (log : List (Entry F)) (hr : run sqrt (create kind h rate biasRate) calls = some (o, log)) :
    ∀ e ∈ log, e.before = (if e.weight then rate else biasRate) ∧ e.after = (if e.weight then rate else biasRate) := by
  refine (run_rates (Q := fun w x => x = if w then rate else biasRate) ?_ calls (invariant_create kind h rate biasRate) ?_ hr).2
  · intro w x y hx hy
    rcases hy with rfl | ⟨d, hd, rfl, _⟩
    · exact hx
    · rcases hd with hd | hd
      · exact absurd hd hk.1
      · exact absurd hd hk.2
  · intro w; cases w <;> rfl

/-- C70. With decay every learning rate is the configured one or lies between the two bounds of the code. -/
theorem C70_rate_bounded (sqrt : F → F) (h : Hyper F) (hb : h.smallest ≤ h.largest) (kind : Kind) (rate biasRate : F) (calls : List (Call F)) (o : Opt F)
    (log : List (Entry F)) (hr : run sqrt (create kind h rate biasRate) calls = some (o, log)) :
    ∀ e ∈ log, e.after = (if e.weight then rate else biasRate) ∨ (h.smallest ≤ e.after ∧ e.after ≤ h.largest) := by
  intro e he
  refine ((run_rates (Q := fun w x => x = (if w then rate else biasRate) ∨ (h.smallest ≤ x ∧ x ≤ h.largest)) ?_ calls
    (invariant_create kind h rate biasRate) ?_ hr).2 e he).2
  · intro w x y hx hy
    rcases hy with rfl | ⟨d, _, _, hy⟩
    · exact hx
    · exact Or.inr (hy hb)
  · intro w; left; cases w <;> rfl

/-- The ids handed out by registrations in a run. -/
def ids (sqrt : F → F) (o : Opt F) : List (Call F) → Option (List Nat)
  | [] => some []
  | .register :: cs => (ids sqrt (register o).2 cs).map fun l => (register o).1 :: l
  | c :: cs => (call sqrt o c).bind fun r => ids sqrt r.1 cs

/-- C70. Momentum and Adam never hand out an id twice, whatever happens between the registrations. -/
theorem C70_ids (sqrt : F → F) (h : Hyper F) (kind : Kind) (hk : kind ≠ .mbgd) (rate biasRate : F) (calls : List (Call F)) (l : List Nat)
    (hr : ids sqrt (create kind h rate biasRate) calls = some l) : l.Nodup := by
  have gen : ∀ (calls : List (Call F)) (o : Opt F) (l : List Nat), o.kind ≠ .mbgd → ids sqrt o calls = some l → (∀ x ∈ l, o.nextId ≤ x) ∧ l.Nodup := by
    intro calls
    induction calls with
    | nil => intro o l _ h; simp only [ids, Option.some.injEq] at h; rw [← h]; simp
    | cons c cs ih =>
      intro o l hk h
      cases c with
      | register =>
        simp only [ids] at h
        obtain ⟨l', h', rfl⟩ := Option.map_eq_some_iff.mp h
        have e : (register o).1 = o.nextId ∧ (register o).2.nextId = o.nextId + 1 ∧ (register o).2.kind = o.kind := by
          unfold register
          split
          · rename_i h0; exact absurd h0 hk
          · exact ⟨rfl, rfl, rfl⟩
        obtain ⟨h1, h2⟩ := ih _ l' (by rw [e.2.2]; exact hk) h'
        rw [e.2.1] at h1
        refine ⟨?_, ?_⟩
        · intro x hx
          rcases List.mem_cons.mp hx with rfl | hx
          · exact e.1.ge
          · have := h1 x hx; omega
        · rw [List.nodup_cons]
          refine ⟨fun hx => ?_, h2⟩
          have := h1 _ hx; rw [e.1] at this; omega
      | tick =>
        simp only [ids, call, Option.bind_some] at h
        exact ih (tick o) l hk h
      | change w id p g =>
        simp only [ids] at h
        obtain ⟨⟨o1, es⟩, h1, h2⟩ := Option.bind_eq_some_iff.mp h
        have e : o1.nextId = o.nextId ∧ o1.kind = o.kind := by
          cases w <;> (simp only [call, calculateWeightsChange, calculateBiasChange, Option.map_map, Option.map_eq_some_iff, Prod.mk.injEq, Function.comp] at h1
                       obtain ⟨_, _, g, _⟩ := h1; rw [← g]; exact ⟨rfl, rfl⟩)
        have := ih o1 l (by rw [e.2]; exact hk) h2
        rwa [e.1] at this
  exact (gen calls _ l hk hr).2

/-- The ratio of Adam's two sums is bounded (Cauchy-Schwarz). -/
theorem moments (β1 β2 : F) (h2 : 0 < β2) (h3 : β2 < 1) (h4 : β1 ^ 2 < β2) (xs : List F) :
    ((1 - β1) * expSum β1 xs) ^ 2 * ((1 - β2) * (β2 - β1 ^ 2)) ≤ (1 - β1) ^ 2 * β2 * ((1 - β2) * expSum β2 (xs.map (· ^ 2))) := by
  have base : expSum β1 xs ^ 2 * (β2 - β1 ^ 2) ≤ β2 * expSum β2 (xs.map (· ^ 2)) := by
    induction xs using List.reverseRecOn with
    | nil => simp [expSum]
    | append_singleton xs x ih =>
      rw [List.map_append, List.map_singleton, expSum_snoc, expSum_snoc]
      obtain ⟨m, hm⟩ : ∃ m, m = expSum β1 xs := ⟨_, rfl⟩
      obtain ⟨v, hv⟩ : ∃ v, v = expSum β2 (xs.map (· ^ 2)) := ⟨_, rfl⟩
      rw [← hm, ← hv] at ih ⊢
      have hd : 0 < β2 - β1 ^ 2 := by linarith
      -- (m β1 + x)² (β2 - β1²) ≤ β2 (m² (β2 - β1²) + x²), the difference is a square
      have hsq : (m * β1 + x) ^ 2 * (β2 - β1 ^ 2) ≤ β2 * (m ^ 2 * (β2 - β1 ^ 2) + x ^ 2) := by
        nlinarith [sq_nonneg (m * (β2 - β1 ^ 2) - β1 * x)]
      calc (m * β1 + x) ^ 2 * (β2 - β1 ^ 2) ≤ β2 * (m ^ 2 * (β2 - β1 ^ 2) + x ^ 2) := hsq
        _ ≤ β2 * (β2 * v + x ^ 2) := by apply mul_le_mul_of_nonneg_left _ h2.le; linarith
        _ = β2 * (v * β2 + x ^ 2) := by ring
  have h5 : 0 ≤ (1 - β1) ^ 2 * (1 - β2) := mul_nonneg (sq_nonneg _) (by linarith)
  calc ((1 - β1) * expSum β1 xs) ^ 2 * ((1 - β2) * (β2 - β1 ^ 2)) = (1 - β1) ^ 2 * (1 - β2) * (expSum β1 xs ^ 2 * (β2 - β1 ^ 2)) := by ring
    _ ≤ (1 - β1) ^ 2 * (1 - β2) * (β2 * expSum β2 (xs.map (· ^ 2))) := mul_le_mul_of_nonneg_left base h5
    _ = _ := by ring

/-- C70. However large the gradients, no change by Adam (with the constants of the code) exceeds 7.3 learning rates, for any sequence of calls. -/
theorem C70_adam_step_bounded (sqrt : F → F) (hs : Statistics.IsSqrt sqrt) (decay : Bool) (rate biasRate : F) (calls : List (Call F)) (o : Opt F)
    (log : List (Entry F)) (hr : run sqrt (create (.adam decay) Hyper.code rate biasRate) calls = some (o, log)) (e : Entry F) (he : e ∈ log)
    (r c k : Nat) : |e.updated.get r c k - e.params.get r c k| ≤ 73 / 10 * |e.after| := by
  obtain ⟨pre, post, hl⟩ := List.append_of_mem he
  have h := C70_adam_partial sqrt Hyper.code decay rate biasRate calls o log hr pre post e hl r c k
  obtain ⟨xs, hxs⟩ : ∃ xs, xs = (mine (pre ++ [e]) e.weight e.id).map fun e => e.gradient.get r c k := ⟨_, rfl⟩
  have hxs2 : ((mine (pre ++ [e]) e.weight e.id).map fun e => e.gradient.get r c k ^ 2) = xs.map (· ^ 2) := by rw [hxs, List.map_map]; rfl
  rw [hxs2, ← hxs] at h
  have hb1 : (Hyper.code : Hyper F).beta1 = 9 / 10 := rfl
  have hb2 : (Hyper.code : Hyper F).beta2 = 999 / 1000 := rfl
  have hm := moments (Hyper.code : Hyper F).beta1 (Hyper.code : Hyper F).beta2 (by rw [hb2]; norm_num) (by rw [hb2]; norm_num)
    (by rw [hb1, hb2]; norm_num) xs
  obtain ⟨M, hM⟩ : ∃ M, M = (1 - (Hyper.code : Hyper F).beta1) * expSum (Hyper.code : Hyper F).beta1 xs := ⟨_, rfl⟩
  obtain ⟨V, hV⟩ : ∃ V, V = (1 - (Hyper.code : Hyper F).beta2) * expSum (Hyper.code : Hyper F).beta2 (xs.map (· ^ 2)) := ⟨_, rfl⟩
  rw [← hM, ← hV] at h hm
  rw [hb1, hb2] at hm
  have hV0 : 0 ≤ V := by nlinarith [sq_nonneg M]
  obtain ⟨hs1, hs2⟩ := hs V hV0
  have heps : 0 < (Hyper.code : Hyper F).eps + (Hyper.code : Hyper F).inverseEps := by
    have h1 : (0 : F) < (Hyper.code : Hyper F).eps := by unfold Hyper.code; positivity
    have h2 : (0 : F) < (Hyper.code : Hyper F).inverseEps := by unfold Hyper.code; positivity
    linarith
  have hden : 0 < sqrt V + (Hyper.code : Hyper F).eps + (Hyper.code : Hyper F).inverseEps := by linarith
  have hMs : |M| ≤ 73 / 10 * sqrt V := by
    apply abs_le_of_sq_le_sq _ (by positivity)
    nlinarith [hs2]
  rw [h, show e.params.get r c k - e.after * M / (sqrt V + (Hyper.code : Hyper F).eps + (Hyper.code : Hyper F).inverseEps) - e.params.get r c k =
    -(e.after * (M / (sqrt V + (Hyper.code : Hyper F).eps + (Hyper.code : Hyper F).inverseEps))) by ring, abs_neg, abs_mul, mul_comm]
  apply mul_le_mul_of_nonneg_right _ (abs_nonneg _)
  rw [abs_div, abs_of_pos hden, div_le_iff₀ hden]
  nlinarith

/-- C70. Without decay, layers do not influence each other: if the parameters of two layers (in any two runs, among any other calls) saw the same
gradients, the next change is the same. -/
theorem C70_independent (sqrt : F → F) (h : Hyper F) (kind : Kind) (hk : kind ≠ .sgdm true ∧ kind ≠ .adam true) (rate biasRate : F)
    (calls calls' : List (Call F)) (o o' : Opt F) (log log' : List (Entry F))
    (hr : run sqrt (create kind h rate biasRate) calls = some (o, log)) (hr' : run sqrt (create kind h rate biasRate) calls' = some (o', log'))
    (pre post pre' post' : List (Entry F)) (e e' : Entry F) (hl : log = pre ++ e :: post) (hl' : log' = pre' ++ e' :: post')
    (hw : e.weight = e'.weight) (hp : e.params = e'.params)
    (hg : (mine (pre ++ [e]) e.weight e.id).map Entry.gradient = (mine (pre' ++ [e']) e'.weight e'.id).map Entry.gradient) (r c k : Nat) :
    e.updated.get r c k = e'.updated.get r c k := by
  have hc := C70_rate_constant sqrt h kind hk rate biasRate calls o log hr
  have hc' := C70_rate_constant sqrt h kind hk rate biasRate calls' o' log' hr'
  have hsub : ∀ x ∈ mine (pre ++ [e]) e.weight e.id, x ∈ log ∧ x.weight = e.weight := by
    intro x hx
    obtain ⟨h1, h2⟩ := List.mem_filter.mp hx
    simp only [Bool.and_eq_true, beq_iff_eq] at h2
    refine ⟨?_, h2.1⟩
    rw [hl]; simp only [List.mem_append, List.mem_cons, List.not_mem_nil, or_false] at h1 ⊢; tauto
  have hsub' : ∀ x ∈ mine (pre' ++ [e']) e'.weight e'.id, x ∈ log' ∧ x.weight = e'.weight := by
    intro x hx
    obtain ⟨h1, h2⟩ := List.mem_filter.mp hx
    simp only [Bool.and_eq_true, beq_iff_eq] at h2
    refine ⟨?_, h2.1⟩
    rw [hl']; simp only [List.mem_append, List.mem_cons, List.not_mem_nil, or_false] at h1 ⊢; tauto
  have he : e ∈ log := by rw [hl]; simp
  have he' : e' ∈ log' := by rw [hl']; simp
  have push : ∀ (f : Tensor F → F), ((mine (pre ++ [e]) e.weight e.id).map fun x => f x.gradient) =
      (mine (pre' ++ [e']) e'.weight e'.id).map fun x => f x.gradient := by
    intro f
    have := congrArg (List.map f) hg
    rwa [List.map_map, List.map_map] at this
  cases kind with
  | mbgd =>
    have a := (C70_sgd sqrt h rate biasRate calls o log hr e he).2
    have a' := (C70_sgd sqrt h rate biasRate calls' o' log' hr' e' he').2
    have hgl : e.gradient = e'.gradient := by
      have := congrArg List.getLast? hg
      rw [mine_snoc, mine_snoc, if_pos ⟨rfl, rfl⟩, if_pos ⟨rfl, rfl⟩] at this
      simpa using this
    rw [a.2, a'.2, a.1, a'.1, hp, hw, hgl]
  | sgdm d =>
    have a := C70_momentum sqrt h d rate biasRate calls o log hr pre post e hl r c k
    have a' := C70_momentum sqrt h d rate biasRate calls' o' log' hr' pre' post' e' hl' r c k
    rw [a, a', hp]
    congr 2
    have h1 : ((mine (pre ++ [e]) e.weight e.id).map fun x => x.before * x.gradient.get r c k) =
        (mine (pre ++ [e]) e.weight e.id).map fun x => (if e.weight then rate else biasRate) * x.gradient.get r c k := by
      apply List.map_congr_left; intro x hx
      rw [(hc x (hsub x hx).1).1, (hsub x hx).2]
    have h2 : ((mine (pre' ++ [e']) e'.weight e'.id).map fun x => x.before * x.gradient.get r c k) =
        (mine (pre' ++ [e']) e'.weight e'.id).map fun x => (if e.weight then rate else biasRate) * x.gradient.get r c k := by
      apply List.map_congr_left; intro x hx
      rw [(hc' x (hsub' x hx).1).1, (hsub' x hx).2, hw]
    rw [h1, h2]
    exact push fun t => (if e.weight then rate else biasRate) * t.get r c k
  | adam d =>
    have a := C70_adam_partial sqrt h d rate biasRate calls o log hr pre post e hl r c k
    have a' := C70_adam_partial sqrt h d rate biasRate calls' o' log' hr' pre' post' e' hl' r c k
    rw [a, a', hp, (hc e he).2, (hc' e' he').2, push fun t => t.get r c k, push fun t => t.get r c k ^ 2]
    simp only [hw]

/-- A tensor with one element. -/
def scalar (x : F) : Tensor F := ⟨1, 1, 1, fun _ _ _ => x⟩

theorem demon_zero (sqrt : F → F) (t : Nat) : demon Hyper.code sqrt t 0 0 = 1 / 100000 := by
  unfold demon
  simp only [zero_mul, zero_div]
  unfold bounded Hyper.code
  norm_num

/-- C70 (violated). With decay, layers do influence each other: here the second layer's only gradient is zero, and it still replaces the configured
rate 1/20 by 1/100000 for the first layer, whose own calls are the same in both runs. -/
theorem C70_independent_violated (sqrt : F → F) :
    ∃ o1 l1 e1 o2 e2, run sqrt (create (.sgdm true) Hyper.code (1 / 20) (1 / 20))
        [.tick, .tick, .change true 1 (scalar 0) (scalar 0), .change true 0 (scalar 0) (scalar 1)] = some (o1, l1 ++ [e1]) ∧
      run sqrt (create (.sgdm true) Hyper.code (1 / 20) (1 / 20)) [.tick, .tick, .change true 0 (scalar 0) (scalar 1)] = some (o2, [e2]) ∧
      e1.id = 0 ∧ e2.id = 0 ∧ e1.updated.get 0 0 0 = -(1 / 100000) ∧ e2.updated.get 0 0 0 = -(1 / 20) := by
  refine ⟨_, [_], _, _, _, rfl, rfl, rfl, rfl, ?_, ?_⟩
  · have hz : average [(1, (⟨1, 1, 1, fun _ _ _ => (0 : F) * (9 / 10) + 0 * (1 / 20)⟩ : Tensor F))] = 0 := by
      simp [average, Statistics.arithmeticMean, Statistics.elements, Statistics.meanStep]
    show (0 : F) - (0 * (9 / 10) + 1 * demon Hyper.code sqrt 2 (average [(1, (⟨1, 1, 1, fun _ _ _ => (0 : F) * (9 / 10) + 0 * (1 / 20)⟩ : Tensor F))])
      (average [(1, (⟨1, 1, 1, fun _ _ _ => (0 : F) * (9 / 10) + 0 * (1 / 20)⟩ : Tensor F))] *
        average [(1, (⟨1, 1, 1, fun _ _ _ => (0 : F) * (9 / 10) + 0 * (1 / 20)⟩ : Tensor F))])) = _
    rw [hz, mul_zero, demon_zero]
    norm_num
  · show (0 : F) - (0 * (9 / 10) + 1 * (1 / 20)) = _
    norm_num

/-- C70 (violated). The first change by Adam is more than three times the learning rate (the published rule, with its bias correction, makes it at
most one learning rate). -/
theorem C70_adam_violated (sqrt : F → F) (hs : Statistics.IsSqrt sqrt) (rate : F) (hp : 0 < rate) :
    ∃ o e, run sqrt (create (.adam false) Hyper.code rate rate) [.change true 0 (scalar 0) (scalar 1)] = some (o, [e]) ∧
      e.updated.get 0 0 0 < -(3 * rate) := by
  refine ⟨_, _, rfl, ?_⟩
  show (0 : F) + (0 * (9 / 10) + 1 * (1 - 9 / 10)) * -rate * (1 / (sqrt (0 * (999 / 1000) + 1 ^ 2 * (1 - 999 / 1000)) + 1 / 100000000 + 1 / 100000000)) < _
  obtain ⟨h1, h2⟩ := hs (0 * (999 / 1000) + 1 ^ 2 * (1 - 999 / 1000)) (by norm_num)
  obtain ⟨x, hx⟩ : ∃ x, x = sqrt (0 * (999 / 1000) + 1 ^ 2 * (1 - 999 / 1000)) := ⟨_, rfl⟩
  rw [← hx] at h1 h2 ⊢
  have h3 : x < 33 / 1000 := by nlinarith
  have h4 : 0 < x + 1 / 100000000 + 1 / 100000000 := by positivity
  have h5 : 3 < 1 / 10 * (1 / (x + 1 / 100000000 + 1 / 100000000)) := by
    rw [mul_one_div, lt_div_iff₀ h4]; norm_num at h3 ⊢; linarith
  have h6 := mul_lt_mul_of_pos_right h5 hp
  nlinarith

/-- Two layers with two changes each, interleaved with a registration and an epoch: the run succeeds. -/
def someCalls : List (Call ℚ) :=
  [.register, .register, .change true 0 (scalar 1) (scalar 2), .change true 1 (scalar 5) (scalar 7), .tick, .change false 0 (scalar 3) (scalar 1),
    .change true 0 (scalar 1) (scalar 3)]

example : ((run id (create (.sgdm false) Hyper.code (1 / 10) (1 / 5)) someCalls).map fun r => r.2.map fun e => e.updated.get 0 0 0) =
    some [1 - 2 / 10, 5 - 7 / 10, 3 - 1 / 5, 1 - (9 / 10 * (2 / 10) + 3 / 10)] := by decide +kernel
example : ((run id (create .mbgd Hyper.code (1 / 10) (1 / 5)) someCalls).map fun r => r.2.map fun e => e.updated.get 0 0 0) =
    some [1 - 2 / 10, 5 - 7 / 10, 3 - 1 / 5, 1 - 3 / 10] := by decide +kernel
example : (run id (create (.adam true) Hyper.code (1 / 10) (1 / 5)) someCalls).isSome = true := by decide +kernel
example : ids id (create (.adam true) Hyper.code (1 / 10) (1 / 5)) someCalls = some [0, 1] := by decide +kernel
/-- Plain gradient descent hands out 0 always, which is harmless as it keeps no state. -/
example : ids id (create .mbgd Hyper.code (1 / 10) (1 / 5)) someCalls = some [0, 0] := by decide +kernel

end Verif.Optimizer
