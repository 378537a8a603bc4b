import Verif.Lemmas.Graph
import Verif.Spec.Training
import Mathlib.Algebra.BigOperators.Group.List.Basic
import Mathlib.Algebra.Order.Field.Basic
import Mathlib.Tactic.Ring
import Mathlib.Tactic.FieldSimp

/-!
C55: a forward pass evaluates every layer exactly once with all of its inputs.
C56: the error sent back to a layer with several consumers is the average of their errors.
C58: the parameter count counts every layer exactly once.
C89: an update applies every layer exactly once.
-/
namespace Verif.Graph
variable {T : Type}

/-- The nodes of a network: the heads and all children. -/
def IsNode (g : Connections) (heads : List Nat) (v : Nat) : Prop := v ∈ heads ∨ ∃ e, e < g.length ∧ dst g e = v

/-- A network as it can be built: heads are different nodes without inputs, connections start at nodes and do not form a cycle. -/
structure WellFormed (g : Connections) (heads : List Nat) (rank : Nat → Nat) (depth : Nat) : Prop where
  nodup : heads.Nodup
  first : ∀ h ∈ heads, ∀ e, e < g.length → dst g e ≠ h
  start : ∀ e, e < g.length → IsNode g heads (src g e)
  ranked : Ranked g rank depth

/-- The value of a node, by recursion up to the given depth. -/
def valueTo (g : Connections) (layer : Nat → List T → T) (heads : List Nat) (given : Nat → T) : Nat → Nat → T
  | 0, v => layer v []
  | k + 1, v => layer v (if v ∈ heads then [given v] else (inputs g v).map fun e => valueTo g layer heads given k (src g e))

/-- For every network and every input there are values for all nodes that fit together. -/
theorem value_exists (g : Connections) (layer : Nat → List T → T) (heads : List Nat) (given : Nat → T) (rank : Nat → Nat)
    (depth : Nat) (h : Ranked g rank depth) : ∃ val, IsValue g layer heads given val := by
  have stable : ∀ k v, rank v < k →
      valueTo g layer heads given k v = valueTo g layer heads given (rank v + 1) v := by
    intro k
    induction k using Nat.strongRecOn with
    | ind k ih =>
      intro v hv
      obtain ⟨k, rfl⟩ : ∃ k', k = k' + 1 := ⟨k - 1, by omega⟩
      rw [valueTo, valueTo]
      congr 1
      split
      · rfl
      · apply List.map_congr_left
        intro e he
        obtain ⟨h1, h2⟩ := (mem_inputs g v e).mp he
        have h3 := (h e h1).1
        rw [h2] at h3
        rw [ih k (by omega) (src g e) (by omega)]
        rcases Nat.lt_or_ge (rank v) k with h4 | h4
        · rw [ih (rank v) (by omega) (src g e) h3]
        · rw [show rank v = k by omega, ih k (by omega) (src g e) (by omega)]
  refine ⟨fun v => valueTo g layer heads given (rank v + 1) v, ?_⟩
  intro v
  show valueTo g layer heads given (rank v + 1) v = _
  rw [valueTo]
  congr 1
  unfold args
  split
  · rfl
  · apply List.map_congr_left
    intro e he
    obtain ⟨h1, h2⟩ := (mem_inputs g v e).mp he
    have h3 := (h e h1).1
    rw [h2] at h3
    exact stable _ _ h3

/-- C55. In every network without cycles, a prediction that starts without stale inputs evaluates every node exactly once, after
the nodes it depends on and with the values that these must compute, and leaves no stale input behind. Every node without outputs
delivers its value. -/
theorem C55 (g : Connections) (layer : Nat → List T → T) (heads : List Nat) (rank : Nat → Nat) (depth : Nat)
    (wf : WellFormed g heads rank depth) (given val : Nat → T) (hval : IsValue g layer heads given val) (fuel : Nat)
    (hfuel : depth < fuel) (s : State T) (hlog : s.log = []) (hclean : ∀ e, e < g.length → s.pending e = none) :
    ∃ s', forwardAll g layer fuel (heads.map fun v => (v, given v)) s = some s' ∧
      (∀ v, v ∈ s'.log.map Prod.fst ↔ IsNode g heads v) ∧ (s'.log.map Prod.fst).Nodup ∧
      (∀ p ∈ s'.log, p.2 = args g heads given val p.1) ∧
      (∀ a w b, s'.log.map Prod.fst = a ++ w :: b → ∀ e, e < g.length → dst g e = w → src g e ∈ a) ∧
      (∀ e, e < g.length → s'.pending e = none) ∧
      (∀ v, IsNode g heads v → (∀ e, e < g.length → src g e ≠ v) → s'.output v = some (val v)) := by
  have hheads : ∀ h ∈ heads, inputs g h = [] := by
    intro h hh
    rw [List.eq_nil_iff_forall_not_mem]
    intro e he
    obtain ⟨h1, h2⟩ := (mem_inputs g h e).mp he
    exact wf.first h hh e h1 h2
  have hev : evaluated s = [] := by simp [evaluated, hlog]
  have hI : Inv g heads given val none (fun _ => False) (fun _ => False) s := by
    constructor
    · intro e _ h; exact absurd h id
    · intro e h _; exact hclean e h
    · intro e h; exact absurd h id
    · intro w _ _
      rw [hev]
      refine ⟨fun h => absurd h (by simp), fun h => ?_⟩
      obtain ⟨e, he⟩ := List.exists_mem_of_ne_nil _ h.1
      exact absurd (h.2 e he) id
    · rw [hev]; simp
    · rw [hlog]; simp
    · rw [hev]; intro a w b h; exact absurd h (by simp)
    · intro w h; exact absurd h id
    · rw [hev]; simp
    · rw [hev]; simp
  obtain ⟨s', S', h1, h2, h3, h4⟩ := forwardAll_spec g layer heads given val hval hheads rank depth wf.ranked fuel hfuel heads
    (fun _ => False) s (fun _ h => h) wf.nodup (by rw [hev]; simp) (fun h hh hn => absurd hh hn) hI
  have hall : ∀ k v, rank v = k → IsNode g heads v → v ∈ evaluated s' := by
    intro k
    induction k using Nat.strongRecOn with
    | ind k ih =>
      intro v hv hn
      by_cases hvh : v ∈ heads
      · exact h3 v hvh
      · rcases hn with hn | ⟨e0, he0, hd0⟩
        · exact absurd hn hvh
        · rw [h2.done v hvh (by simp)]
          refine ⟨List.ne_nil_of_mem ((mem_inputs g v e0).mpr ⟨he0, hd0⟩), ?_⟩
          intro e he
          obtain ⟨k1, k2⟩ := (mem_inputs g v e).mp he
          have k3 := (wf.ranked e k1).1
          rw [k2] at k3
          have := ih (rank (src g e)) (by omega) (src g e) rfl (wf.start e k1)
          exact h2.complete _ this id e ((mem_outputs g _ e).mpr ⟨k1, rfl⟩)
  refine ⟨s', h1, ?_, h2.once, h2.right, ?_, ?_, ?_⟩
  · intro v
    constructor
    · intro hv
      rcases h4 v hv with h | h
      · exact Or.inl h
      · obtain ⟨e, he⟩ := List.exists_mem_of_ne_nil _ h
        obtain ⟨k1, k2⟩ := (mem_inputs g v e).mp he
        exact Or.inr ⟨e, k1, k2⟩
    · exact hall _ v rfl
  · intro a w b h e he hd
    exact h2.order a w b h e ((mem_inputs g w e).mpr ⟨he, hd⟩)
  · intro e he
    refine h2.empty e he fun h => ?_
    rcases h.2 with h | h
    · exact h (hall _ _ rfl (Or.inr ⟨e, he, rfl⟩))
    · exact h
  · intro v hv ho
    refine h2.result v (hall _ v rfl hv) ?_
    rw [List.eq_nil_iff_forall_not_mem]
    intro e he
    obtain ⟨k1, k2⟩ := (mem_outputs g v e).mp he
    exact ho e k1 k2

/-- C55 for `predict`: the results are the values of the output nodes, for any number of predictions in a row. -/
theorem C55_predict (g : Connections) (layer : Nat → List T → T) (heads outs : List Nat) (rank : Nat → Nat) (depth : Nat)
    (wf : WellFormed g heads rank depth) (houts : ∀ o ∈ outs, IsNode g heads o ∧ ∀ e, e < g.length → src g e ≠ o) (fuel : Nat)
    (hfuel : depth < fuel) (given val : Nat → T) (hval : IsValue g layer heads given val) (s : State T)
    (hclean : ∀ e, e < g.length → s.pending e = none) :
    ∃ s', predict g layer fuel heads outs (heads.map given) { s with log := [] } = some (outs.map fun o => some (val o), s') ∧
      ∀ e, e < g.length → s'.pending e = none := by
  obtain ⟨s', h1, _, _, _, _, h6, h7⟩ := C55 g layer heads rank depth wf given val hval fuel hfuel { s with log := [] } rfl hclean
  have hzip : heads.zip (heads.map given) = heads.map fun v => (v, given v) := by
    clear * -
    induction heads with
    | nil => rfl
    | cons a l ih => simp [ih]
  refine ⟨{ s' with output := fun w => if w ∈ outs then none else s'.output w }, ?_, h6⟩
  unfold predict
  rw [if_neg (by simp), hzip, h1]
  have hmap : outs.map s'.output = outs.map fun o => some (val o) :=
    List.map_congr_left fun o ho => h7 o (houts o ho).1 (houts o ho).2
  simp only [hmap]

/-- A network with two inputs and a shared layer for the examples: 0 and 1 are heads, 2 uses both, 3 and 4 use 2, 5 uses 3, 4 and 1. -/
def diamond : Connections := [(0, 2), (1, 2), (2, 3), (2, 4), (3, 5), (4, 5), (1, 5)]

example : WellFormed diamond [0, 1] id 5 := by
  refine ⟨by decide, by decide, ?_, ?_⟩
  · intro e he
    unfold IsNode
    have : ∀ e, e < diamond.length → src diamond e ∈ [0, 1] ∨ (inputs diamond (src diamond e)) ≠ [] := by decide
    rcases this e he with h | h
    · exact Or.inl h
    · obtain ⟨e', he'⟩ := List.exists_mem_of_ne_nil _ h
      exact Or.inr ⟨e', ((mem_inputs _ _ e').mp he').1, ((mem_inputs _ _ e').mp he').2⟩
  · unfold Ranked; decide

example : (predict diamond (fun v l => v + l.sum) 6 [0, 1] [5] [10, 20] ⟨fun _ => none, fun _ => none, []⟩).map Prod.fst =
    some [some (5 + ((3 + (2 + (10 + 21))) + (4 + (2 + (10 + 21))) + 21))] := by decide

/-! C58 -/

/-- The layers that can be reached from the inputs. -/
inductive Reachable (g : Connections) (heads : List Nat) : Nat → Prop
  | head (v : Nat) (h : v ∈ heads) : Reachable g heads v
  | next (e : Nat) (he : e < g.length) (h : Reachable g heads (src g e)) : Reachable g heads (dst g e)

/-- What counting from some nodes adds to the visited ones. -/
def Adds (g : Connections) (count : Nat → Nat) (starts : List Nat) (c0 : Nat) (visited : List Nat) (r : Nat × List Nat) : Prop :=
  ∃ new, r.2 = new ++ visited ∧ r.1 = c0 + (new.map count).sum ∧ (visited.Nodup → (new ++ visited).Nodup) ∧
    (∀ v ∈ starts, v ∈ r.2) ∧ (∀ w ∈ new, Reachable g starts w) ∧ (∀ w ∈ new, ∀ e ∈ outputs g w, dst g e ∈ r.2)

theorem Reachable.trans (g : Connections) (a b : List Nat) (h : ∀ v ∈ a, Reachable g b v) (w : Nat) (hw : Reachable g a w) :
    Reachable g b w := by
  induction hw with
  | head v hv => exact h v hv
  | next e he _ ih => exact .next e he ih

theorem fold_adds (g : Connections) (count : Nat → Nat) (f : Nat → List Nat → Option (Nat × List Nat)) (h : Nat → Nat)
    (hf : ∀ v vs r, f v vs = some r → Adds g count [v] 0 vs r) (l : List Nat) :
    ∀ (c0 : Nat) (vs : List Nat) (r : Nat × List Nat),
      l.foldlM (fun (acc : Nat × List Nat) e =>
        match f (h e) acc.2 with
        | none => none
        | some (c, vs) => some (acc.1 + c, vs)) (c0, vs) = some r →
      Adds g count (l.map h) c0 vs r := by
  induction l with
  | nil =>
    intro c0 vs r hr
    simp only [List.foldlM_nil, Option.pure_def, Option.some.injEq] at hr
    subst hr
    exact ⟨[], rfl, by simp, fun h => h, by simp, by simp, by simp⟩
  | cons e l ih =>
    intro c0 vs r hr
    rw [List.foldlM_cons] at hr
    cases hfe : f (h e) vs with
    | none => simp [hfe] at hr
    | some p =>
      obtain ⟨c, vs1⟩ := p
      simp only [hfe, Option.bind_eq_bind, Option.bind_some] at hr
      obtain ⟨new1, a1, a2, a3, a4, a5, a6⟩ := hf _ _ _ hfe
      obtain ⟨new2, b1, b2, b3, b4, b5, b6⟩ := ih _ _ _ hr
      simp only at a1 a2 a4 a6
      refine ⟨new2 ++ new1, ?_, ?_, ?_, ?_, ?_, ?_⟩
      · rw [b1, a1, List.append_assoc]
      · rw [b2, a2, List.map_append, List.sum_append]; omega
      · intro hn
        have := b3 (by rw [a1]; exact a3 hn)
        rw [a1] at this
        rw [List.append_assoc]; exact this
      · intro v hv
        rcases List.mem_cons.mp hv with rfl | hv
        · rw [b1]
          exact List.mem_append_right _ (a4 (h e) (by simp))
        · exact b4 v hv
      · intro w hw
        rcases List.mem_append.mp hw with hw | hw
        · exact (b5 w hw).trans _ _ _ (fun v hv => .head v (by simp at hv ⊢; exact Or.inr hv))
        · exact (a5 w hw).trans _ _ _ (fun v hv => .head v (by simp at hv ⊢; exact Or.inl hv))
      · intro w hw e' he'
        rcases List.mem_append.mp hw with hw | hw
        · exact b6 w hw e' he'
        · rw [b1]; exact List.mem_append_right _ (a6 w hw e' he')

theorem countFrom_adds (g : Connections) (count : Nat → Nat) (fuel : Nat) :
    ∀ v vs r, countFrom g count fuel v vs = some r → Adds g count [v] 0 vs r := by
  induction fuel with
  | zero => intro v vs r h; simp [countFrom] at h
  | succ fuel ih =>
    intro v vs r h
    rw [countFrom] at h
    split at h
    · rename_i hm
      simp only [Option.some.injEq] at h
      subst h
      exact ⟨[], rfl, by simp, fun h => h, by simp [hm], by simp, by simp⟩
    · rename_i hm
      obtain ⟨new, a1, a2, a3, a4, a5, a6⟩ := fold_adds g count (countFrom g count fuel) (dst g) ih (outputs g v) _ _ r h
      refine ⟨new ++ [v], by rw [a1]; simp, ?_, ?_, ?_, ?_, ?_⟩
      · rw [a2, List.map_append, List.sum_append]; simp; omega
      · intro hn
        have := a3 (List.nodup_cons.mpr ⟨hm, hn⟩)
        simpa using this
      · intro w hw
        simp at hw
        subst hw
        rw [a1]; simp
      · intro w hw
        rcases List.mem_append.mp hw with hw | hw
        · refine (a5 w hw).trans _ _ _ ?_
          intro u hu
          obtain ⟨e, he, rfl⟩ := List.mem_map.mp hu
          obtain ⟨k1, k2⟩ := (mem_outputs g v e).mp he
          exact .next e k1 (by rw [k2]; exact .head v (by simp))
        · simp at hw; subst hw; exact .head _ (by simp)
      · intro w hw e he
        rcases List.mem_append.mp hw with hw | hw
        · exact a6 w hw e he
        · simp at hw; subst hw
          exact a4 _ (List.mem_map.mpr ⟨e, he, rfl⟩)

/-- C58. The total is the sum over the layers that can be reached from the inputs, each once; also in graphs with shared layers or
cycles. -/
theorem C58 (g : Connections) (count : Nat → Nat) (fuel : Nat) (heads : List Nat) (n : Nat) (visited : List Nat)
    (h : total g count fuel heads = some (n, visited)) :
    visited.Nodup ∧ (∀ v, v ∈ visited ↔ Reachable g heads v) ∧ n = (visited.map count).sum := by
  have := fold_adds g count (countFrom g count fuel) id (countFrom_adds g count fuel) heads 0 [] (n, visited) h
  obtain ⟨new, a1, a2, a3, a4, a5, a6⟩ := this
  simp only [List.append_nil, List.map_id] at a1 a2 a3 a4 a5 a6
  subst a1
  refine ⟨a3 List.nodup_nil, ?_, by omega⟩
  intro v
  refine ⟨fun hv => a5 v hv, ?_⟩
  intro hv
  induction hv with
  | head v hv => exact a4 v hv
  | next e he _ ih => exact a6 _ ih e ((mem_outputs g _ e).mpr ⟨he, rfl⟩)

/-- C58: the count ends in every network without cycles. -/
theorem C58_ends (g : Connections) (count : Nat → Nat) (rank : Nat → Nat) (depth : Nat) (h : Ranked g rank depth) (fuel : Nat)
    (hfuel : depth < fuel) (heads : List Nat) : ∃ r, total g count fuel heads = some r := by
  have hfold : ∀ (f : Nat → List Nat → Option (Nat × List Nat)) (k : Nat → Nat) (l : List Nat) (acc : Nat × List Nat),
      (∀ e ∈ l, ∀ vs, ∃ r, f (k e) vs = some r) →
      ∃ r, l.foldlM (fun (acc : Nat × List Nat) e =>
        match f (k e) acc.2 with
        | none => none
        | some (c, vs) => some (acc.1 + c, vs)) acc = some r := by
    intro f k l
    induction l with
    | nil => intro acc _; exact ⟨acc, rfl⟩
    | cons e l ih =>
      intro acc hf
      obtain ⟨⟨c, vs⟩, hr⟩ := hf e (by simp) acc.2
      rw [List.foldlM_cons, hr]
      exact ih _ fun e he => hf e (by simp [he])
  have hcount : ∀ fuel v vs, depth < rank v + fuel → 1 ≤ fuel → ∃ r, countFrom g count fuel v vs = some r := by
    intro fuel
    induction fuel with
    | zero => intro v vs _ h1; omega
    | succ fuel ih =>
      intro v vs hv _
      rw [countFrom]
      split
      · exact ⟨_, rfl⟩
      · refine hfold (countFrom g count fuel) (dst g) (outputs g v) _ ?_
        intro e he vs
        obtain ⟨h1, h2⟩ := (mem_outputs g v e).mp he
        have := h e h1
        rw [h2] at this
        exact ih _ _ (by omega) (by omega)
  exact hfold (countFrom g count fuel) id heads (0, []) fun e _ vs => hcount fuel e vs (by omega) (by omega)

example : total diamond (fun v => 10 ^ v) 6 [0, 1] = some (111111, [1, 4, 5, 3, 2, 0]) := by decide

/-! C56 -/

/-- C56 for a layer with one consumer: the error is passed on as it is. Missing: several consumers, see `C56_exact` and
`C56_violated`. -/
theorem C56_partial {F : Type} [Field F] (error : F) (waiting : Option F) :
    handOver 0 error [waiting] = ([waiting], some error) := by simp [handOver]

/-- What is done for several consumers: when the last of their errors arrives, it is counted twice. Nothing is sent before. -/
theorem C56_exact {F : Type} [Field F] (place : Nat) (error : F) (waiting : List (Option F)) (hl : 2 ≤ waiting.length) :
    (∀ errors : List F, waiting.set place (some error) = errors.map some →
      handOver place error waiting = (waiting.map fun _ => none, some ((error + errors.sum) / (waiting.length : F)))) ∧
    ((∃ i, i ≠ place ∧ waiting[i]? = some none) → (handOver place error waiting).2 = none) := by
  constructor
  · intro errors he
    unfold handOver
    rw [if_neg (by omega)]
    dsimp only
    have hm : (errors.map some).mapM id = some errors := by
      rw [mapM_some id (fun o => o.getD 0) (errors.map some) (by
        intro a ha
        obtain ⟨x, _, rfl⟩ := List.mem_map.mp ha
        rfl)]
      simp [Function.comp_def]
    have hlen : errors.length = waiting.length := by
      have := congrArg List.length he
      simpa using this.symm
    rw [he, hm]
    rcases errors with _ | ⟨a, rest⟩
    · simp at hlen; omega
    · dsimp only
      have hfold : ∀ (l : List F) (x : F), l.foldl (· + ·) x = x + l.sum := by
        intro l
        induction l with
        | nil => intro x; simp
        | cons y l ih => intro x; rw [List.foldl_cons, ih, List.sum_cons, add_assoc]
      rw [hfold]
      refine Prod.ext ?_ ?_
      · simp only [List.map_const', hlen, List.length_map]
      · simp only [List.sum_cons, List.length_map, hlen, add_assoc]
  · rintro ⟨i, hi, hn⟩
    unfold handOver
    rw [if_neg (by omega)]
    dsimp only
    rw [mapM_none id _ ⟨none, ?_, rfl⟩]
    rw [List.mem_iff_getElem?]
    exact ⟨i, by rw [List.getElem?_set_ne hi.symm]; exact hn⟩

/-- C56 is violated: two consumers return the errors 1 and 3, the node is called with 7 / 2 instead of 2. -/
theorem C56_violated :
    (let r := handOver 0 (1 : ℚ) [none, none]
     r.2 = none ∧ handOver 1 3 r.1 = ([none, none], some (7 / 2))) ∧ Training.mean [1, 3] = (2 : ℚ) := by
  refine ⟨⟨rfl, by decide +kernel⟩, by decide +kernel⟩

/-! C89 -/

/-- C89 for networks in which every layer has at most one consumer: an update starting at an output applies exactly the layers that
lead to it, each once. Missing: shared layers, see `C89_violated`. -/
theorem C89_partial (g : Connections) (hone : ∀ e e', e < g.length → e' < g.length → src g e = src g e' → e = e')
    (rank : Nat → Nat) (depth : Nat) (hrank : Ranked g rank depth) (fuel : Nat) (v : Nat) (hfuel : rank v < fuel) :
    ∃ l, applyFrom g fuel v = some l ∧ l.Nodup ∧ ∀ u, u ∈ l ↔ Reachable g [u] v := by
  have hback : ∀ u v, Reachable g [u] v → u = v ∨ ∃ e, e < g.length ∧ dst g e = v ∧ Reachable g [u] (src g e) := by
    intro u v h
    cases h with
    | head _ h => left; exact (by simpa using h : v = u).symm
    | next e he h => exact Or.inr ⟨e, he, rfl, h⟩
  -- a layer reaches at most one of two layers with different consumers on the way
  have hrk : ∀ u v, Reachable g [u] v → rank u ≤ rank v := by
    intro u v h
    induction h with
    | head w h => simp at h; subst h; exact Nat.le_refl _
    | next e he _ ih => have := (hrank e he).1; omega
  have hlin : ∀ u a b, Reachable g [u] a → Reachable g [u] b → Reachable g [a] b ∨ Reachable g [b] a := by
    intro u a b ha
    induction ha with
    | head w h => simp at h; subst h; exact fun hb => Or.inl hb
    | next e he _ ih =>
      intro hb
      rcases ih hb with h | h
      · -- from the source of `e` to `b`: either it is `b` itself or the path uses `e`
        have : ∀ x, Reachable g [src g e] x → x = src g e ∨ Reachable g [dst g e] x := by
          intro x hx
          induction hx with
          | head w h => left; simpa using h
          | next e' he' _ ih' =>
            right
            rcases ih' with h1 | h1
            · have := hone e' e he' he h1
              subst this
              exact .head _ (by simp)
            · exact .next e' he' h1
        rcases this b h with h1 | h1
        · right
          subst h1
          exact .next e he (.head _ (by simp))
        · exact Or.inl h1
      · exact Or.inr (.next e he h)
  have hmain : ∀ fuel v, rank v < fuel → ∃ l, applyFrom g fuel v = some l ∧ l.Nodup ∧ ∀ u, u ∈ l ↔ Reachable g [u] v := by
    intro fuel
    induction fuel with
    | zero => intro v h; omega
    | succ fuel ih =>
      intro v hv
      have hfold : ∀ (es : List Nat) (acc : List Nat), (∀ e ∈ es, e ∈ inputs g v) → es.Nodup → acc.Nodup →
          (∀ u ∈ acc, ∀ e ∈ es, ¬ Reachable g [u] (src g e)) →
          ∃ l, es.foldlM (fun acc e => match applyFrom g fuel (src g e) with
            | none => none
            | some l => some (acc ++ l)) acc = some l ∧ l.Nodup ∧
            ∀ u, u ∈ l ↔ u ∈ acc ∨ ∃ e ∈ es, Reachable g [u] (src g e) := by
        intro es
        induction es with
        | nil => intro acc _ _ ha _; exact ⟨acc, rfl, ha, by simp⟩
        | cons e es ih2 =>
          intro acc hin hnd ha hdis
          obtain ⟨k1, k2⟩ := (mem_inputs g v e).mp (hin e (by simp))
          have hr := (hrank e k1).1
          rw [k2] at hr
          obtain ⟨l, h1, h2, h3⟩ := ih (src g e) (by omega)
          rw [List.nodup_cons] at hnd
          obtain ⟨l', h4, h5, h6⟩ := ih2 (acc ++ l) (fun e he => hin e (by simp [he])) hnd.2 (by
            refine List.nodup_append.mpr ⟨ha, h2, ?_⟩
            intro a haa b hb hab
            subst hab
            exact hdis a haa e (by simp) ((h3 a).mp hb)) (by
            intro u hu e' he' hre
            rcases List.mem_append.mp hu with hu | hu
            · exact hdis u hu e' (by simp [he']) hre
            · have hu' := (h3 u).mp hu
              obtain ⟨m1, m2⟩ := (mem_inputs g v e').mp (hin e' (by simp [he']))
              have hr' := (hrank e' m1).1
              rw [m2] at hr'
              have hne : e ≠ e' := fun h => hnd.1 (h ▸ he')
              -- both sources have `v` as their only consumer
              have hstuck : ∀ (e1 e2 : Nat), e1 < g.length → dst g e1 = v → e2 < g.length → dst g e2 = v →
                  Reachable g [src g e1] (src g e2) → e1 = e2 := by
                intro e1 e2 a1 a2 a3 a4 a5
                have hpath : ∀ x, Reachable g [src g e1] x → x = src g e1 ∨ rank v ≤ rank x := by
                  intro x hx
                  induction hx with
                  | head w h => left; simpa using h
                  | next e3 h3 _ ih3 =>
                    right
                    have hr3 := (hrank e3 h3).1
                    rcases ih3 with h | h
                    · have := hone e3 e1 h3 a1 h
                      subst this
                      rw [a2]
                    · omega
                have hr2 := (hrank e2 a3).1
                rw [a4] at hr2
                rcases hpath _ a5 with h | h
                · exact hone e1 e2 a1 a3 h.symm
                · omega
              rcases hlin u _ _ hu' hre with h | h
              · exact hne (hstuck e e' k1 k2 m1 m2 h)
              · exact hne (hstuck e' e m1 m2 k1 k2 h).symm)
          refine ⟨l', ?_, h5, ?_⟩
          · rw [List.foldlM_cons, h1]; exact h4
          · intro u
            rw [h6 u, List.mem_append, h3 u]
            simp only [List.mem_cons, exists_eq_or_imp, or_assoc]
      rw [applyFrom]
      obtain ⟨l, h1, h2, h3⟩ := hfold (inputs g v) [v] (fun _ h => h) (List.nodup_range.filter _) (by simp) (by
        intro u hu e he hre
        simp at hu; subst hu
        obtain ⟨k1, k2⟩ := (mem_inputs g u e).mp he
        have hr := (hrank e k1).1
        rw [k2] at hr
        have := hrk _ _ hre
        omega)
      refine ⟨l, h1, h2, ?_⟩
      intro u
      rw [h3 u]
      constructor
      · rintro (h | ⟨e, he, h⟩)
        · simp at h; subst h; exact .head _ (by simp)
        · obtain ⟨k1, k2⟩ := (mem_inputs g v e).mp he
          rw [← k2]
          exact .next e k1 h
      · intro h
        rcases hback u v h with h | ⟨e, he, hd, h⟩
        · left; simp [h]
        · exact Or.inr ⟨e, (mem_inputs g v e).mpr ⟨he, hd⟩, h⟩
  exact hmain fuel v hfuel

example : ∀ e e', e < [(0, 2), (1, 2), (2, 3)].length → e' < [(0, 2), (1, 2), (2, 3)].length →
    src [(0, 2), (1, 2), (2, 3)] e = src [(0, 2), (1, 2), (2, 3)] e' → e = e' := by
  have : ∀ e < 3, ∀ e' < 3, src [(0, 2), (1, 2), (2, 3)] e = src [(0, 2), (1, 2), (2, 3)] e' → e = e' := by decide
  exact fun e e' h h' => this e h e' h'

/-- C89 is violated: layer 0 has two consumers and is applied twice; the second time its queue is empty, so that training throws
whenever it has weights, whatever errors were queued. -/
theorem C89_violated :
    applyFrom [(0, 1), (0, 2), (1, 3), (2, 3)] 4 3 = some [3, 1, 0, 2, 0] ∧
    ∀ {E : Type} (trainable : Nat → Bool) (q : Nat → List E), trainable 0 = true →
      applyAll trainable [3, 1, 0, 2, 0] q = none := by
  refine ⟨by decide, ?_⟩
  intro E trainable q h0
  have h2 : ∀ q : Nat → List E, q 0 = [] → applyAll trainable [2, 0] q = none := by
    intro q hq
    unfold applyAll
    split
    · split
      · rfl
      · simp [applyAll, h0, hq]
    · simp [applyAll, h0, hq]
  have h1 : ∀ q : Nat → List E, applyAll trainable [0, 2, 0] q = none := by
    intro q
    unfold applyAll
    rw [if_pos h0]
    split
    · rfl
    · exact h2 _ (by simp)
  have h3 : ∀ q : Nat → List E, applyAll trainable [1, 0, 2, 0] q = none := by
    intro q
    unfold applyAll
    split
    · split
      · rfl
      · exact h1 _
    · exact h1 _
  unfold applyAll
  split
  · split
    · rfl
    · exact h3 _
  · exact h3 _

end Verif.Graph
