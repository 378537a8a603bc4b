import Verif.Lemmas.LabelNetwork

/-! The shapes and the order of the vertices in the network of a label task. -/

namespace Verif.LabelNetwork
open Verif Verif.Enums Verif.Dsl Verif.Wiring

theorem labelOps_usual (n : LabelNet) (ops : List Op) (h : labelOps n = some ops) : ∀ o ∈ ops, o.Usual := by
  unfold labelOps at h
  rw [Option.map_eq_some_iff] at h
  obtain ⟨l, hl, rfl⟩ := h
  have h1 : ∀ o ∈ l, o.Usual := by
    unfold firstOps at hl
    split at hl
    · cases hl
    · split at hl
      · rw [← Option.some.inj hl]
        simp [Op.Usual]
      · rw [← Option.some.inj hl]
        simp [Op.Usual]
    · rw [← Option.some.inj hl]
      intro o ho
      simp only [joinedInputs, List.mem_append, List.mem_map, List.mem_singleton] at ho
      rcases ho with (⟨s, _, rfl⟩ | rfl) | rfl <;> simp [Op.Usual]
  have h2 : ∀ v, ∀ o ∈ (tuning n).map (Op.set v), o.Usual := by
    intro v o ho
    rw [List.mem_map] at ho
    obtain ⟨s, _, rfl⟩ := ho
    trivial
  have h3 : ∀ o ∈ extraOps n, o.Usual := by
    intro o ho
    unfold extraOps at ho
    split at ho
    · rw [List.mem_singleton] at ho
      subst ho
      simp [Op.Usual]
    · cases ho
  have h4 : ∀ o ∈ outputOps n, o.Usual := by
    intro o ho
    unfold outputOps at ho
    rw [List.mem_flatMap] at ho
    obtain ⟨e, _, he⟩ := ho
    simp only [List.mem_cons, List.not_mem_nil, or_false] at he
    rcases he with rfl | rfl <;> simp [Op.Usual]
  intro o ho
  simp only [List.mem_append, List.mem_cons, List.not_mem_nil, or_false] at ho
  rcases ho with (((((ho | ho) | rfl | rfl | rfl) | ho) | rfl) | ho) | ho
  · exact h1 o ho
  · exact h2 _ o ho
  · simp [Op.Usual]
  · simp [Op.Usual]
  · trivial
  · exact h2 _ o ho
  · simp [Op.Usual]
  · exact h3 o ho
  · exact h4 o ho

/-! ### Shapes -/

/-- `Fits` without the clause about outputs. -/
def LocalFits (d : Dsl) : Prop :=
  ∀ e ∈ d, FitsVertex e.1 ∧ (e.2 ≠ [] → outShapes d e.2 = some e.1.inShapes) ∧
    ∀ q ∈ e.2, ((vertexAt d q).map fun y => decide (flattens y.1)) = some true → takesFlat e.1

theorem outShapes_left (d e : Dsl) (ps : List Nat) (l : List Shape) (h : outShapes d ps = some l) : outShapes (d ++ e) ps = some l := by
  rw [← h]
  apply outShapes_congr
  intro p hp
  obtain ⟨y, hy⟩ := outShapes_some d ps l h p hp
  rw [hy, vertexAt_left _ _ _ _ hy]

theorem LocalFits.grow {d : Dsl} (h : LocalFits d) (x : Vertex) (ps : List Nat) (hx : FitsVertex x) (hps : ps ≠ [] → outShapes d ps = some x.inShapes)
    (hq : ∀ q ∈ ps, ∀ y, vertexAt d q = some y → flattens y.1 → takesFlat x) : LocalFits (d ++ [(x, ps)]) := by
  intro e he
  rw [List.mem_append, List.mem_singleton] at he
  rcases he with he | rfl
  · obtain ⟨h1, h2, h3⟩ := h e he
    refine ⟨h1, fun hne => outShapes_left _ _ _ _ (h2 hne), ?_⟩
    intro q hq' hf
    have hne : e.2 ≠ [] := List.ne_nil_of_mem hq'
    obtain ⟨y, hy⟩ := outShapes_some d e.2 _ (h2 hne) q hq'
    rw [vertexAt_left _ _ _ _ hy] at hf
    apply h3 q hq'
    rw [hy]
    exact hf
  · refine ⟨hx, fun hne => outShapes_left _ _ _ _ (hps hne), ?_⟩
    intro q hq' hf
    have hne : ps ≠ [] := List.ne_nil_of_mem hq'
    obtain ⟨y, hy⟩ := outShapes_some d ps _ (hps hne) q hq'
    rw [vertexAt_left _ _ _ _ hy] at hf
    apply hq q hq' y hy
    simpa using hf

/-- One more layer on an existing one. -/
theorem LocalFits.layer {d : Dsl} (h : LocalFits d) (x : Vertex) (p : Nat) (y : Vertex × List Nat) (hy : vertexAt d p = some y) (hx : FitsVertex x)
    (hi : x.inShapes = [y.1.outShape]) (hq : flattens y.1 → takesFlat x) : LocalFits (d ++ [(x, [p])]) := by
  apply h.grow x [p] hx
  · intro _
    unfold outShapes
    rw [List.mapM_cons, hy, hi]
    rfl
  · intro q hqm z hz hf
    rw [List.mem_singleton] at hqm
    subst hqm
    rw [hy] at hz
    cases hz
    exact hq hf

theorem fits_full (x : Vertex) (w : Nat) (i : Shape) (hk : x.kind = .full) (ho : x.outShape = ⟨1, w, 1⟩) (hi : x.inShapes = [i]) (hw : w < 2 ^ 64)
    (h1 : 1 < i.rows ∨ (i.rows = 1 ∧ i.chans = 1)) (h2 : i.rows * i.cols * i.chans < 2 ^ 64) : FitsVertex x := by
  unfold FitsVertex
  rw [hk]
  refine ⟨by rw [ho], by rw [ho], by rw [ho]; exact hw, ?_⟩
  intro j hj
  rw [hi, List.mem_singleton] at hj
  subst hj
  exact ⟨h1, h2⟩

/-- A single input column: an image has to be at least 3x3, another one has several rows or a single row with a single channel. Several columns: a single row
has a single channel. Sizes are below 2^64. -/
def Acceptable (n : LabelNet) : Prop :=
  total n.given < 2 ^ 64 ∧
    match n.given with
    | [] => False
    | [g] => if n.image then 3 ≤ g.rows ∧ 3 ≤ g.cols ∧ 0 < g.chans else 1 < g.rows ∨ (g.rows = 1 ∧ g.chans = 1)
    | l => ∀ s ∈ l, s.rows = 1 → s.chans = 1

/-- The sizes that depend on the expected columns are below 2^64. -/
def Sized (n : LabelNet) : Prop := total n.expected < 2 ^ 64 ∧ widthExpected n n.complexity < 2 ^ 64

theorem widthGiven_lt (n : LabelNet) (h : Acceptable n) : widthGiven n < 2 ^ 64 :=
  lt_of_le_of_lt (Nat.min_le_left _ _) h.1

theorem widthExpected_one (n : LabelNet) : widthExpected n 1 = total n.expected := by
  unfold widthExpected
  rw [mul_one]
  exact Nat.floor_natCast _

theorem le_total (l : List Shape) (s : Shape) (h : s ∈ l) : s.rows * s.cols * s.chans ≤ total l := by
  unfold total
  apply List.single_le_sum (by simp)
  exact List.mem_map.2 ⟨s, h, rfl⟩

theorem wrap_of_lt (k : Nat) (h : k < 2 ^ 64) : wrap k = k := Nat.mod_eq_of_lt h

theorem wrap_conv (k : Nat) (h : k < 2 ^ 64) (h3 : 3 ≤ k) : wrap (k + 2 ^ 64 - 3 + 1) = k - 2 := by
  unfold wrap
  revert h
  generalize 2 ^ 64 = N
  intro h
  rw [show k + N - 3 + 1 = (k - 2) + N by omega, Nat.add_mod_right]
  exact Nat.mod_eq_of_lt (by omega)

theorem le_prod (a b c : Nat) (hb : 0 < b) (hc : 0 < c) : a ≤ a * b * c := by
  rw [Nat.mul_assoc]
  exact Nat.le_mul_of_pos_right a (Nat.mul_pos hb hc)

/-- The first hidden layer delivers something a full layer can work with. -/
theorem firstShape_ok (n : LabelNet) (h : Acceptable n) :
    (1 < (firstShape n).rows ∨ ((firstShape n).rows = 1 ∧ (firstShape n).chans = 1)) ∧
      (firstShape n).rows * (firstShape n).cols * (firstShape n).chans < 2 ^ 64 := by
  have hw := widthGiven_lt n h
  have hw' : 1 * widthGiven n * 1 < 2 ^ 64 := by rw [Nat.one_mul, Nat.mul_one]; exact hw
  unfold firstShape
  split
  · rename_i g hg
    have hl := le_total n.given g (by rw [hg]; simp)
    obtain ⟨ht, h⟩ := h
    rw [hg] at h
    simp only at h
    by_cases hi : n.image = true
    · rw [if_pos hi] at h ⊢
      obtain ⟨h1, h2, h3⟩ := h
      have hp : g.rows * g.cols * g.chans < 2 ^ 64 := lt_of_le_of_lt hl ht
      have hr : g.rows < 2 ^ 64 := lt_of_le_of_lt (le_prod _ _ _ (by omega) h3) hp
      have hc : g.cols < 2 ^ 64 := by
        refine lt_of_le_of_lt ?_ hp
        rw [Nat.mul_comm g.rows]
        exact le_prod _ _ _ (by omega) h3
      simp only
      rw [wrap_conv _ hr h1, wrap_conv _ hc h2]
      refine ⟨?_, ?_⟩
      · rcases Nat.lt_or_ge 1 (g.rows - 2) with hlt | hge
        · exact Or.inl hlt
        · exact Or.inr ⟨by omega, trivial⟩
      refine lt_of_le_of_lt ?_ hp
      rw [Nat.mul_one]
      exact le_trans (Nat.mul_le_mul (Nat.sub_le _ _) (Nat.sub_le _ _)) (Nat.le_mul_of_pos_right _ h3)
    · rw [if_neg hi]
      exact ⟨Or.inr ⟨rfl, rfl⟩, hw'⟩
  · exact ⟨Or.inr ⟨rfl, rfl⟩, hw'⟩

theorem secondWidth_lt (n : LabelNet) (h : Acceptable n) (he : Sized n) : secondWidth n < 2 ^ 64 := by
  unfold secondWidth
  split
  · exact widthGiven_lt n h
  · exact he.2

theorem inputs_fit (l : List Shape) (d : Dsl) (hd : LocalFits d) (ht : total l < 2 ^ 64) (h : ∀ s ∈ l, s.rows = 1 → s.chans = 1) :
    LocalFits (d ++ l.map fun s => (flatV s, [])) := by
  induction l generalizing d with
  | nil => simpa using hd
  | cons s l ih =>
    rw [List.map_cons, show d ++ (flatV s, ([] : List Nat)) :: l.map (fun s => (flatV s, [])) = d ++ [(flatV s, [])] ++ l.map (fun s => (flatV s, [])) by simp]
    have ht' : s.rows * s.cols * s.chans + total l < 2 ^ 64 := by
      unfold total at ht ⊢
      rw [List.map_cons, List.sum_cons] at ht
      exact ht
    refine ih _ (hd.grow _ _ ?_ (fun hne => absurd rfl hne) (by simp)) (by omega) fun t h' => h t (List.mem_cons_of_mem _ h')
    show ∀ i ∈ [s], _
    intro i hi
    rw [List.mem_singleton] at hi
    subst hi
    show (⟨1, wrap (i.rows * i.cols * i.chans), 1⟩ : Shape) = _
    rw [wrap_of_lt _ (by omega)]
    by_cases hr : i.rows = 1
    · rw [if_pos hr]
      have := h i List.mem_cons_self hr
      obtain ⟨r, c, k⟩ := i
      simp only at hr this
      subst hr this
      simp
    · rw [if_neg hr]

theorem sum_wrapped (l : List Shape) (ht : total l < 2 ^ 64) : (l.map fun s => wrap (s.rows * s.cols * s.chans)).sum = total l := by
  unfold total
  congr 1
  apply List.map_congr_left
  intro s hs
  exact wrap_of_lt _ (lt_of_le_of_lt (le_total l s hs) ht)

theorem firstV_out (n : LabelNet) : (firstV n).outShape = firstShape n := by
  unfold firstV
  split
  · rename_i g hg
    have : firstShape n = if n.image then ⟨wrap (g.rows + 2 ^ 64 - 3 + 1), wrap (g.cols + 2 ^ 64 - 3 + 1), 1⟩ else ⟨1, widthGiven n, 1⟩ := by
      unfold firstShape
      rw [hg]
    split
    · rfl
    · rename_i hi
      rw [this, if_neg hi]
      rfl
  · rename_i h
    have : firstShape n = ⟨1, widthGiven n, 1⟩ := by
      unfold firstShape
      split
      · rename_i g hg
        exact absurd hg (h g)
      · rfl
    rw [this]
    rfl

theorem upToFirst_fits (n : LabelNet) (h : Acceptable n) : LocalFits (upToFirst n) := by
  have hw := widthGiven_lt n h
  unfold upToFirst before firstParents
  have h' := h.2
  split at h'
  · exact h'.elim
  · rename_i g hg
    have hl := le_total n.given g (by rw [hg]; simp)
    have hp : g.rows * g.cols * g.chans < 2 ^ 64 := lt_of_le_of_lt hl h.1
    have hlen : n.given.length ≤ 1 := by rw [hg]; simp
    rw [if_pos hlen, if_pos hlen]
    refine LocalFits.grow (d := []) (by intro e he; cases he) _ _ ?_ (fun hne => absurd rfl hne) (by simp)
    unfold firstV
    rw [hg]
    simp only
    by_cases hi : n.image = true
    · rw [if_pos hi] at h' ⊢
      obtain ⟨h1, h2, h3⟩ := h'
      have hr : g.rows < 2 ^ 64 := lt_of_le_of_lt (le_prod _ _ _ (by omega) h3) hp
      refine ⟨Nat.one_pos, ?_⟩
      intro i hi'
      rw [show (tuned n _).inShapes = [g] from rfl, List.mem_singleton] at hi'
      subst hi'
      exact ⟨h3, h1, h2, hr⟩
    · rw [if_neg hi] at h' ⊢
      exact fits_full _ _ g rfl rfl rfl hw h' hp
  · rename_i l h1 h2
    have hlen : ¬ n.given.length ≤ 1 := by
      cases hn : n.given with
      | nil => exact absurd hn h1
      | cons a l =>
        cases l with
        | nil => exact absurd hn (h2 a)
        | cons b l => simp
    rw [if_neg hlen, if_neg hlen, firstV_joined n h2]
    have hin := inputs_fit n.given [] (by intro e he; cases he) h.1 h'
    rw [List.nil_append] at hin
    have hos := outShapes_flat n.given [] []
    rw [List.append_nil, List.nil_append, List.length_nil, Nat.zero_add] at hos
    have hjs : joinedShape n.given = ⟨1, total n.given, 1⟩ := by
      unfold joinedShape
      rw [sum_wrapped _ h.1, wrap_of_lt _ h.1]
    have hconc : (concatenation (n.given.map fun s => (⟨1, wrap (s.rows * s.cols * s.chans), 1⟩ : Shape))).outShape = joinedShape n.given := by
      unfold concatenation joinedShape
      simp only [List.map_map]
      rfl
    have hcat : LocalFits (n.given.map (fun s => (flatV s, [])) ++
        [(concatenation (n.given.map fun s => ⟨1, wrap (s.rows * s.cols * s.chans), 1⟩), List.range' 1 n.given.length)]) := by
      refine hin.grow _ _ ?_ (fun _ => hos) ?_
      · refine ⟨?_, ?_, ?_⟩
        · show 2 ≤ (n.given.map _).length
          rw [List.length_map]
          omega
        · intro i hi
          rw [show (concatenation (n.given.map fun s => (⟨1, wrap (s.rows * s.cols * s.chans), 1⟩ : Shape))).inShapes = n.given.map fun s => (⟨1, wrap (s.rows * s.cols * s.chans), 1⟩ : Shape) from rfl,
            List.mem_map] at hi
          obtain ⟨s, _, rfl⟩ := hi
          exact ⟨rfl, rfl⟩
        · show ((n.given.map fun s => (⟨1, wrap (s.rows * s.cols * s.chans), 1⟩ : Shape)).map Shape.cols).sum < 2 ^ 64
          rw [List.map_map]
          show (n.given.map fun s => wrap (s.rows * s.cols * s.chans)).sum < 2 ^ 64
          rw [sum_wrapped _ h.1]
          exact h.1
      · intro q _ y hy hf
        have hm := vertexAt_mem _ _ _ hy
        rw [List.mem_map] at hm
        obtain ⟨s, _, rfl⟩ := hm
        cases hf.1
    refine hcat.layer _ _ _ (vertexAt_last _ _ _ (by simp)) ?_ ?_ ?_
    · refine fits_full _ (widthGiven n) (joinedShape n.given) rfl rfl rfl hw ?_ ?_
      · rw [hjs]; exact Or.inr ⟨rfl, rfl⟩
      · rw [hjs]
        simp only [Nat.one_mul, Nat.mul_one]
        exact h.1
    · rw [hconc]; rfl
    · intro hf; cases hf.1

theorem hidden_fits (n : LabelNet) (h : Acceptable n) (he : Sized n) :
    LocalFits (hiddenVs n) ∧ ∃ y, vertexAt (hiddenVs n) (lastHidden n) = some y ∧ y.1.outShape = lastShape n ∧ ¬ flattens y.1 := by
  obtain ⟨f1, f2⟩ := firstShape_ok n h
  have hs := secondWidth_lt n h he
  have hsw : 1 * secondWidth n * 1 < 2 ^ 64 := by rw [Nat.one_mul, Nat.mul_one]; exact hs
  have h0 := upToFirst_fits n h
  have hf := first_pos n
  have hu := upToFirst_length n
  have a1 : LocalFits (upToFirst n ++ [(dropV (firstShape n), [first n])]) := by
    refine h0.layer _ _ (firstV n, firstParents n) ?_ ?_ ?_ (fun _ => Or.inr (Or.inr rfl))
    · unfold upToFirst at hu ⊢
      exact vertexAt_last _ _ _ (by rw [← before_length])
    · show ∀ i ∈ [firstShape n], firstShape n = i
      intro i hi
      rw [List.mem_singleton] at hi
      exact hi.symm
    · rw [firstV_out]; rfl
  have a2 : LocalFits (upToFirst n ++ [(dropV (firstShape n), [first n])] ++ [(secondV n, [first n + 1])]) := by
    refine a1.layer _ _ _ (vertexAt_last _ _ _ (by omega)) ?_ rfl (fun _ => Or.inl rfl)
    exact fits_full _ (secondWidth n) (firstShape n) rfl rfl rfl hs f1 f2
  have a3 : LocalFits (upToFirst n ++ [(dropV (firstShape n), [first n])] ++ [(secondV n, [first n + 1])] ++
      [(dropV ⟨1, secondWidth n, 1⟩, [first n + 2])]) := by
    refine a2.layer _ _ _ (vertexAt_last _ _ _ (by simp; omega)) ?_ rfl (fun _ => Or.inr (Or.inr rfl))
    show ∀ i ∈ [(⟨1, secondWidth n, 1⟩ : Shape)], (⟨1, secondWidth n, 1⟩ : Shape) = i
    intro i hi
    rw [List.mem_singleton] at hi
    exact hi.symm
  unfold hiddenVs lastHidden lastShape
  by_cases hc : n.loss = .categoricalCrossEntropy
  · rw [if_pos hc, if_pos hc, if_pos hc]
    have hnf : ¬ flattens (dropV ⟨1, secondWidth n, 1⟩) := by
      intro hf
      exact absurd hf.2 (by show ¬ 1 < 1; omega)
    refine ⟨a3.layer _ _ _ (vertexAt_last _ _ _ (by simp; omega)) ?_ rfl (fun hf => absurd hf hnf), (extraV n, [first n + 3]),
      vertexAt_last _ _ _ (by simp; omega), rfl, ?_⟩
    · refine fits_full _ (widthExpected n 1) ⟨1, secondWidth n, 1⟩ rfl rfl rfl ?_ (Or.inr ⟨rfl, rfl⟩) hsw
      rw [widthExpected_one]
      exact he.1
    · intro hf
      cases hf.1
  · rw [if_neg hc, if_neg hc, if_neg hc, List.append_nil]
    refine ⟨a3, _, vertexAt_last _ _ _ (by simp; omega), rfl, ?_⟩
    intro hf
    exact absurd hf.2 (by show ¬ 1 < 1; omega)

/-! ### Order -/

theorem parentsAt_map (d : Dsl) (v : Nat) : parentsAt d v = if v = 0 then [] else ((d.map (·.2))[v - 1]?).getD [] := by
  unfold parentsAt vertexAt
  split
  · rfl
  · rw [List.getElem?_map]

/-- How many inputs. -/
def inputs (n : LabelNet) : Nat := n.given.length

/-- The vertex from which the rest is a chain, and its parents. -/
def base (n : LabelNet) : Nat := if n.given.length ≤ 1 then 1 else n.given.length + 1

theorem parents_list (n : LabelNet) :
    ∃ pre : List (List Nat), (vertices n).map (·.2) = pre ++ (List.range' (base n) (lastHidden n - base n)).map (fun q => [q]) ++
        List.replicate n.expected.length [lastHidden n] ∧ pre.length = base n ∧
      pre = if n.given.length ≤ 1 then [[]] else List.replicate n.given.length [] ++ [List.range' 1 n.given.length] := by
  refine ⟨if n.given.length ≤ 1 then [[]] else List.replicate n.given.length [] ++ [List.range' 1 n.given.length], ?_, ?_, rfl⟩
  · have hout : (n.expected.map fun s => (outV n s, [lastHidden n])).map (·.2) = List.replicate n.expected.length [lastHidden n] := by
      rw [List.map_map]
      exact List.map_const
    have hin : (n.given.map fun s => (flatV s, ([] : List Nat))).map (·.2) = List.replicate n.given.length [] := by
      rw [List.map_map]
      exact List.map_const
    unfold vertices hiddenVs upToFirst before firstParents
    rw [List.map_append, hout]
    congr 1
    unfold base lastHidden first
    by_cases h1 : n.given.length ≤ 1
    · simp only [h1, if_true]
      by_cases hc : n.loss = .categoricalCrossEntropy
      · simp [hc, List.range'_succ]
      · simp [hc, List.range'_succ]
    · simp only [h1, if_false]
      rw [List.map_append, List.map_append, List.map_append, List.map_append, List.map_append, List.map_append, hin]
      by_cases hc : n.loss = .categoricalCrossEntropy
      · simp only [hc, if_true]
        rw [show n.given.length + 2 + 4 - (n.given.length + 1) = 5 by omega]
        simp [List.range'_succ]
      · simp only [hc, if_false]
        rw [show n.given.length + 2 + 3 - (n.given.length + 1) = 4 by omega]
        simp [List.range'_succ]
  · unfold base
    split <;> simp

theorem base_le (n : LabelNet) : 1 ≤ base n ∧ base n ≤ lastHidden n := by
  unfold base lastHidden first
  split <;> split <;> omega

/-- The layers after the inputs form a chain; the outputs are added to its end. -/
theorem parents_at (n : LabelNet) :
    (∀ v, base n < v → v ≤ lastHidden n → parentsAt (vertices n) v = [v - 1]) ∧
      (∀ v, lastHidden n < v → v ≤ lastHidden n + n.expected.length → parentsAt (vertices n) v = [lastHidden n]) ∧
      (∀ v, 1 ≤ v → v ≤ n.given.length → (n.given.length = 1 ∨ v ≠ base n) → parentsAt (vertices n) v = []) ∧
      (1 < n.given.length → parentsAt (vertices n) (base n) = List.range' 1 n.given.length) := by
  obtain ⟨pre, hp, hpl, hpe⟩ := parents_list n
  obtain ⟨hb1, hb2⟩ := base_le n
  refine ⟨?_, ?_, ?_, ?_⟩
  · intro v h1 h2
    rw [parentsAt_map, if_neg (by omega), hp, List.append_assoc, List.getElem?_append_right (by omega),
      List.getElem?_append_left (by rw [List.length_map, List.length_range']; omega), List.getElem?_map, List.getElem?_range' (by omega)]
    simp only [Option.map_some, Option.getD_some, List.cons.injEq, and_true]
    omega
  · intro v h1 h2
    rw [parentsAt_map, if_neg (by omega), hp, List.getElem?_append_right (by simp; omega), List.getElem?_replicate, if_pos (by simp; omega)]
    rfl
  · intro v h1 h2 h3
    rw [parentsAt_map, if_neg (by omega), hp, List.append_assoc, List.getElem?_append_left (by unfold base at *; split at hpl <;> omega), hpe]
    by_cases hg : n.given.length ≤ 1
    · rw [if_pos hg]
      have : v - 1 = 0 := by omega
      rw [this]
      rfl
    · rw [if_neg hg, List.getElem?_append_left (by simp; omega), List.getElem?_replicate]
      split <;> rfl
  · intro hg
    rw [parentsAt_map, if_neg (by omega), hp, List.append_assoc, List.getElem?_append_left (by omega), hpe, if_neg (by omega),
      List.getElem?_append_right (by unfold base; simp; split <;> omega)]
    have : base n - 1 - (List.replicate n.given.length ([] : List Nat)).length = 0 := by
      unfold base
      rw [if_neg (by omega), List.length_replicate]
      omega
    rw [this]
    rfl

theorem outputs_list (n : LabelNet) :
    (vertices n).map (fun x => x.1.output) = List.replicate (lastHidden n) false ++ List.replicate n.expected.length true := by
  unfold vertices
  rw [List.map_append, List.map_map]
  congr 1
  · rw [← hiddenVs_length, List.eq_replicate_iff]
    refine ⟨List.length_map _, ?_⟩
    intro b hb
    rw [List.mem_map] at hb
    obtain ⟨x, hx, rfl⟩ := hb
    have hfv : (firstV n).output = false := by
      unfold firstV
      split
      · split <;> rfl
      · rfl
    have hbe : ∀ x ∈ before n, x.1.output = false := by
      intro x hx
      unfold before at hx
      split at hx
      · cases hx
      · rw [List.mem_append, List.mem_map, List.mem_singleton] at hx
        rcases hx with ⟨s, _, rfl⟩ | rfl <;> rfl
    unfold hiddenVs upToFirst at hx
    simp only [List.mem_append, List.mem_singleton] at hx
    rcases hx with ((((hx | rfl) | rfl) | rfl) | rfl) | hx
    · exact hbe x hx
    · exact hfv
    · rfl
    · rfl
    · rfl
    · split at hx
      · rw [List.mem_singleton] at hx
        subst hx
        rfl
      · cases hx
  · exact List.map_const

theorem accepts_list (n : LabelNet) (hg : n.given ≠ []) :
    (vertices n).map (fun x => x.1.accepts) = List.replicate n.given.length true ++ List.replicate (lastHidden n + n.expected.length - n.given.length) false := by
  have hout : (n.expected.map fun s => (outV n s, [lastHidden n])).map (fun x => x.1.accepts) = List.replicate n.expected.length false := by
    rw [List.map_map]
    exact List.map_const
  have hin : (n.given.map fun s => (flatV s, ([] : List Nat))).map (fun x => x.1.accepts) = List.replicate n.given.length true := by
    rw [List.map_map]
    exact List.map_const
  unfold vertices
  rw [List.map_append, hout]
  unfold hiddenVs upToFirst before lastHidden first
  by_cases h1 : n.given.length ≤ 1
  · have hl : n.given.length = 1 := by
      have := List.length_pos_iff.2 hg
      omega
    obtain ⟨g, hg'⟩ := List.length_eq_one_iff.1 hl
    have hfv : (firstV n).accepts = true := by
      unfold firstV
      rw [hg']
      simp only
      split <;> rfl
    simp only [h1, if_true]
    by_cases hc : n.loss = .categoricalCrossEntropy
    · simp only [hc, if_true]
      rw [hl, show 1 + 4 + n.expected.length - 1 = 4 + n.expected.length by omega, List.replicate_add]
      simp [hfv, dropV, secondV, extraV, tuned, plainV, List.replicate_succ]
    · simp only [hc, if_false]
      rw [hl, show 1 + 3 + n.expected.length - 1 = 3 + n.expected.length by omega, List.replicate_add]
      simp [hfv, dropV, secondV, tuned, plainV, List.replicate_succ]
  · have hfv : (firstV n).accepts = false := by
      rw [firstV_joined n (by intro g hg'; rw [hg'] at h1; simp at h1)]
      rfl
    simp only [h1, if_false]
    rw [List.map_append, List.map_append, List.map_append, List.map_append, List.map_append, List.map_append, hin]
    by_cases hc : n.loss = .categoricalCrossEntropy
    · simp only [hc, if_true]
      rw [show n.given.length + 2 + 4 + n.expected.length - n.given.length = 6 + n.expected.length by omega, List.replicate_add]
      simp [hfv, dropV, secondV, extraV, tuned, plainV, concatenation, List.replicate_succ]
    · simp only [hc, if_false]
      rw [show n.given.length + 2 + 3 + n.expected.length - n.given.length = 5 + n.expected.length by omega, List.replicate_add]
      simp [hfv, dropV, secondV, tuned, plainV, concatenation, List.replicate_succ]

end Verif.LabelNetwork
