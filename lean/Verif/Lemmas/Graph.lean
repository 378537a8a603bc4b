import Verif.Model.Graph
import Mathlib.Tactic.Push
import Mathlib.Data.List.Nodup

namespace Verif.Graph
variable {T : Type}

theorem mem_inputs (g : Connections) (v e : Nat) : e ∈ inputs g v ↔ e < g.length ∧ dst g e = v := by
  simp [inputs]

theorem mem_outputs (g : Connections) (v e : Nat) : e ∈ outputs g v ↔ e < g.length ∧ src g e = v := by
  simp [outputs]

theorem outputs_nodup (g : Connections) (v : Nat) : (outputs g v).Nodup := List.nodup_range.filter _

/-- The inputs that a layer must be given. -/
def args (g : Connections) (heads : List Nat) (given val : Nat → T) (v : Nat) : List T :=
  if v ∈ heads then [given v] else (inputs g v).map fun e => val (src g e)

/-- `val` is what every node must compute. -/
def IsValue (g : Connections) (layer : Nat → List T → T) (heads : List Nat) (given val : Nat → T) : Prop :=
  ∀ v, val v = layer v (args g heads given val v)

/-- Connections lead from lower to higher rank, which is at most `depth`. -/
def Ranked (g : Connections) (rank : Nat → Nat) (depth : Nat) : Prop :=
  ∀ e, e < g.length → rank (src g e) < rank (dst g e) ∧ rank (dst g e) ≤ depth

/-- The nodes that were evaluated. -/
def evaluated (s : State T) : List Nat := s.log.map Prod.fst

/-- The state of a pass: `S` are the connections that were served, `A` the nodes that are being worked on; `ex` is a node that has
just received its last input. -/
structure Inv (g : Connections) (heads : List Nat) (given val : Nat → T) (ex : Option Nat) (S A : Nat → Prop) (s : State T) : Prop where
  full : ∀ e, e < g.length → S e → (dst g e ∉ evaluated s ∨ A (dst g e)) → s.pending e = some (val (src g e))
  empty : ∀ e, e < g.length → ¬ (S e ∧ (dst g e ∉ evaluated s ∨ A (dst g e))) → s.pending e = none
  served : ∀ e, S e → e < g.length ∧ src g e ∈ evaluated s
  done : ∀ w, w ∉ heads → ex ≠ some w → (w ∈ evaluated s ↔ inputs g w ≠ [] ∧ ∀ e ∈ inputs g w, S e)
  once : (evaluated s).Nodup
  right : ∀ p ∈ s.log, p.2 = args g heads given val p.1
  order : ∀ a w b, evaluated s = a ++ w :: b → ∀ e ∈ inputs g w, src g e ∈ a
  active : ∀ w, A w → w ∈ evaluated s
  complete : ∀ w ∈ evaluated s, ¬ A w → ∀ e ∈ outputs g w, S e
  result : ∀ w ∈ evaluated s, outputs g w = [] → s.output w = some (val w)

/-- What a call of `doForward` for `v` must achieve. -/
def Works (g : Connections) (heads : List Nat) (given val : Nat → T)
    (rec : Nat → List T → State T → Option (State T)) (v : Nat) : Prop :=
  ∀ (S A : Nat → Prop) (s : State T), Inv g heads given val (some v) S A s → v ∉ evaluated s →
    (∀ e ∈ inputs g v, S e) → (v ∉ heads → inputs g v ≠ []) → (v ∈ heads → inputs g v = []) →
    ∃ s' S', rec v (args g heads given val v) s = some s' ∧ Inv g heads given val none S' (fun w => A w ∨ w = v) s' ∧
      (∀ w ∈ evaluated s, w ∈ evaluated s') ∧ v ∈ evaluated s' ∧ (∀ e, S e → S' e) ∧
      (∀ e, S' e → S e ∨ src g e ∉ evaluated s) ∧ (∀ e ∈ outputs g v, S' e) ∧
      (∀ w ∈ evaluated s', w ∈ evaluated s ∨ w = v ∨ w ∉ heads)

theorem mapM_some {α β : Type} (f : α → Option β) (h : α → β) : ∀ (l : List α), (∀ a ∈ l, f a = some (h a)) →
    l.mapM f = some (l.map h) := by
  intro l
  induction l with
  | nil => intro _; rfl
  | cons a l ih =>
    intro hl
    rw [List.mapM_cons, hl a (by simp), ih fun b hb => hl b (by simp [hb])]
    rfl

theorem mapM_none {α β : Type} (f : α → Option β) : ∀ (l : List α), (∃ a ∈ l, f a = none) → l.mapM f = none := by
  intro l
  induction l with
  | nil => rintro ⟨a, h, _⟩; simp at h
  | cons b l ih =>
    rintro ⟨a, ha, hn⟩
    rw [List.mapM_cons]
    rcases List.mem_cons.mp ha with rfl | ha
    · rw [hn]; rfl
    · rw [ih ⟨a, ha, hn⟩]
      cases f b <;> rfl

/-- Serving one connection. -/
theorem send_spec (g : Connections) (heads : List Nat) (given val : Nat → T)
    (hheads : ∀ h ∈ heads, inputs g h = [])
    (rec : Nat → List T → State T → Option (State T)) (v e : Nat) (he : e ∈ outputs g v)
    (hrec : Works g heads given val rec (dst g e)) (S A : Nat → Prop) (s : State T)
    (hI : Inv g heads given val none S A s) (hv : v ∈ evaluated s) (hS : ¬ S e) :
    ∃ s' S', send g rec (val v) s e = some s' ∧ Inv g heads given val none S' A s' ∧
      (∀ w ∈ evaluated s, w ∈ evaluated s') ∧ (∀ e, S e → S' e) ∧
      (∀ e', S' e' → S e' ∨ e' = e ∨ src g e' ∉ evaluated s) ∧ S' e ∧
      (∀ u ∈ evaluated s', u ∈ evaluated s ∨ u ∉ heads) := by
  classical
  obtain ⟨helt, hesrc⟩ := (mem_outputs g v e).mp he
  obtain ⟨w, hw⟩ : ∃ w, dst g e = w := ⟨_, rfl⟩
  have hein : e ∈ inputs g w := (mem_inputs g w e).mpr ⟨helt, hw⟩
  have hwh : w ∉ heads := by
    intro h
    rw [hheads w h] at hein
    simp at hein
  have hwD : w ∉ evaluated s := by
    intro h
    exact hS (((hI.done w hwh (by simp)).mp h).2 e hein)
  have hwA : ¬ A w := fun h => hwD (hI.active w h)
  obtain ⟨S1, hS1⟩ : ∃ S1 : Nat → Prop, S1 = fun e' => S e' ∨ e' = e := ⟨_, rfl⟩
  obtain ⟨s1, hs1⟩ : ∃ s1 : State T, s1 = { s with pending := fun e' => if e' = e then some (val v) else s.pending e' } := ⟨_, rfl⟩
  have hev : evaluated s1 = evaluated s := by rw [hs1]; rfl
  have hI1 : Inv g heads given val (some w) S1 A s1 := by
    constructor
    · intro e' h1 h2 h3
      rw [hs1]
      dsimp only
      by_cases hee : e' = e
      · rw [if_pos hee, hee, hesrc]
      · rw [if_neg hee]
        rw [hS1] at h2
        rw [hev] at h3
        exact hI.full e' h1 (h2.resolve_right hee) h3
    · intro e' h1 h2
      rw [hev] at h2
      have hee : e' ≠ e := by
        rintro rfl
        exact h2 ⟨by rw [hS1]; exact Or.inr rfl, Or.inl (by rw [hw]; exact hwD)⟩
      rw [hs1]
      dsimp only
      rw [if_neg hee]
      refine hI.empty e' h1 fun h3 => h2 ⟨?_, h3.2⟩
      rw [hS1]
      exact Or.inl h3.1
    · intro e' h
      rw [hev]
      rw [hS1] at h
      rcases h with h | rfl
      · exact hI.served e' h
      · exact ⟨helt, by rw [hesrc]; exact hv⟩
    · intro u hu hex
      rw [hev]
      have huw : u ≠ w := fun h => hex (by rw [h])
      rw [hI.done u hu (by simp)]
      constructor
      · rintro ⟨h1, h2⟩
        exact ⟨h1, fun e' he' => by rw [hS1]; exact Or.inl (h2 e' he')⟩
      · rintro ⟨h1, h2⟩
        refine ⟨h1, fun e' he' => ?_⟩
        have := h2 e' he'
        rw [hS1] at this
        rcases this with h | rfl
        · exact h
        · exact absurd ((mem_inputs g u _).mp he').2 (by rw [hw]; exact fun h => huw h.symm)
    · rw [hev]; exact hI.once
    · rw [hs1]; exact hI.right
    · rw [hev]; exact hI.order
    · intro u hu; rw [hev]; exact hI.active u hu
    · intro u hu hA e' he'
      rw [hev] at hu
      rw [hS1]
      exact Or.inl (hI.complete u hu hA e' he')
    · intro u hu ho
      rw [hev] at hu
      rw [hs1]
      exact hI.result u hu ho
  have hpend : ∀ e' ∈ inputs g w, S1 e' → s1.pending e' = some (val (src g e')) := by
    intro e' he' h
    obtain ⟨h1, h2⟩ := (mem_inputs g w e').mp he'
    exact hI1.full e' h1 h (Or.inl (by rw [h2, hev]; exact hwD))
  unfold send
  dsimp only
  rw [← hs1, hw]
  by_cases hall : ∀ e' ∈ inputs g w, S1 e'
  · have hready : ready g s1 w = some (args g heads given val w) := by
      unfold ready args
      rw [if_neg hwh]
      exact mapM_some _ _ _ fun e' he' => hpend e' he' (hall e' he')
    rw [hready]
    dsimp only
    have hne : inputs g w ≠ [] := List.ne_nil_of_mem hein
    obtain ⟨s2, S2, h1, h2, h3, h4, h5, h6, h7, h11⟩ := (hw ▸ hrec) S1 A s1 hI1 (by rw [hev]; exact hwD) hall (fun _ => hne)
      (fun h => absurd h hwh)
    rw [h1]
    refine ⟨_, S2, rfl, ?_, ?_, ?_, ?_, ?_, ?_⟩
    · constructor
      · intro e' h8 h9 h10
        by_cases hd : e' ∈ inputs g w
        · exfalso
          obtain ⟨_, hd2⟩ := (mem_inputs g w e').mp hd
          rw [hd2] at h10
          rcases h10 with h10 | h10
          · exact h10 h4
          · exact hwA h10
        · simp only [clear, if_neg hd]
          refine h2.full e' h8 h9 (h10.imp id fun h => Or.inl h)
      · intro e' h8 h9
        by_cases hd : e' ∈ inputs g w
        · simp only [clear, if_pos hd]
        · simp only [clear, if_neg hd]
          refine h2.empty e' h8 fun h => h9 ⟨h.1, h.2.imp id fun h => ?_⟩
          rcases h with h | h
          · exact h
          · exact absurd ((mem_inputs g w e').mpr ⟨h8, h⟩) hd
      · exact h2.served
      · exact h2.done
      · exact h2.once
      · exact h2.right
      · exact h2.order
      · intro u hu; exact h2.active u (Or.inl hu)
      · intro u hu hA e' he'
        by_cases huw : u = w
        · subst huw; exact h7 e' he'
        · exact h2.complete u hu (by rintro (h | h); exact hA h; exact huw h) e' he'
      · exact h2.result
    · intro u hu; exact h3 u (by rw [hev]; exact hu)
    · intro e' h; exact h5 e' (by rw [hS1]; exact Or.inl h)
    · intro e' h
      rcases h6 e' h with h | h
      · rw [hS1] at h
        rcases h with h | h
        · exact Or.inl h
        · exact Or.inr (Or.inl h)
      · exact Or.inr (Or.inr (by rw [← hev]; exact h))
    · exact h5 e (by rw [hS1]; exact Or.inr rfl)
    · intro u hu
      rcases h11 u hu with h | h | h
      · exact Or.inl (by rw [← hev]; exact h)
      · subst h; exact Or.inr hwh
      · exact Or.inr h
  · have hready : ready g s1 w = none := by
      push Not at hall
      obtain ⟨e', he', hne⟩ := hall
      refine mapM_none _ _ ⟨e', he', ?_⟩
      exact hI1.empty e' ((mem_inputs g w e').mp he').1 fun h => hne h.1
    rw [hready]
    refine ⟨s1, S1, rfl, ?_, ?_, ?_, ?_, ?_, ?_⟩
    · refine { hI1 with done := ?_ }
      intro u hu _
      by_cases huw : u = w
      · subst huw
        rw [hev]
        exact ⟨fun h => absurd h hwD, fun h => absurd h.2 hall⟩
      · exact hI1.done u hu (by simp; exact fun h => huw h.symm)
    · intro u hu; rw [hev]; exact hu
    · intro e' h; rw [hS1]; exact Or.inl h
    · intro e' h
      rw [hS1] at h
      rcases h with h | h
      · exact Or.inl h
      · exact Or.inr (Or.inl h)
    · rw [hS1]; exact Or.inr rfl
    · intro u hu; rw [hev] at hu; exact Or.inl hu

theorem sendAll_spec (g : Connections) (heads : List Nat) (given val : Nat → T)
    (hheads : ∀ h ∈ heads, inputs g h = [])
    (rec : Nat → List T → State T → Option (State T)) (v : Nat) (A : Nat → Prop)
    (hrec : ∀ e ∈ outputs g v, Works g heads given val rec (dst g e)) (es : List Nat) :
    ∀ (S : Nat → Prop) (s : State T), (∀ e ∈ es, e ∈ outputs g v) → es.Nodup → Inv g heads given val none S A s →
      v ∈ evaluated s → (∀ e ∈ es, ¬ S e) →
      ∃ s' S', sendAll g rec (val v) s es = some s' ∧ Inv g heads given val none S' A s' ∧
        (∀ w ∈ evaluated s, w ∈ evaluated s') ∧ (∀ e, S e → S' e) ∧
        (∀ e', S' e' → S e' ∨ e' ∈ es ∨ src g e' ∉ evaluated s) ∧ (∀ e ∈ es, S' e) ∧
        (∀ u ∈ evaluated s', u ∈ evaluated s ∨ u ∉ heads) := by
  induction es with
  | nil =>
    intro S s _ _ hI _ _
    exact ⟨s, S, rfl, hI, fun _ h => h, fun _ h => h, fun _ h => Or.inl h, by simp, fun _ h => Or.inl h⟩
  | cons e es ih =>
    intro S s hes hnd hI hv hS
    have heo := hes e (by simp)
    obtain ⟨s1, S1, h1, h2, h3, h4, h5, h6, h7⟩ :=
      send_spec g heads given val hheads rec v e heo (hrec e heo) S A s hI hv (hS e (by simp))
    rw [List.nodup_cons] at hnd
    obtain ⟨s2, S2, k1, k2, k3, k4, k5, k6, k7⟩ := ih S1 s1 (fun e' h => hes e' (by simp [h])) hnd.2 h2 (h3 v hv) (by
      intro e' he' hcon
      rcases h5 e' hcon with h | h | h
      · exact hS e' (by simp [he']) h
      · subst h; exact hnd.1 he'
      · rw [((mem_outputs g v e').mp (hes e' (by simp [he']))).2] at h
        exact h hv)
    refine ⟨s2, S2, by simp only [sendAll, h1, k1], k2, fun w hw => k3 w (h3 w hw), fun e' h => k4 e' (h4 e' h), ?_, ?_, ?_⟩
    · intro e' h
      rcases k5 e' h with h | h | h
      · rcases h5 e' h with h | h | h
        · exact Or.inl h
        · exact Or.inr (Or.inl (by simp [h]))
        · exact Or.inr (Or.inr h)
      · exact Or.inr (Or.inl (by simp [h]))
      · exact Or.inr (Or.inr fun hm => h (h3 _ hm))
    · intro e' he'
      rcases List.mem_cons.mp he' with rfl | he'
      · exact k4 _ h6
      · exact k6 e' he'
    · intro u hu
      rcases k7 u hu with h | h
      · exact h7 u h
      · exact Or.inr h

theorem doForward_works (g : Connections) (layer : Nat → List T → T) (heads : List Nat) (given val : Nat → T)
    (hval : IsValue g layer heads given val) (hheads : ∀ h ∈ heads, inputs g h = []) (rank : Nat → Nat) (depth : Nat)
    (hrank : Ranked g rank depth) (fuel : Nat) :
    ∀ v, depth < rank v + fuel → 1 ≤ fuel → Works g heads given val (doForward g layer fuel) v := by
  induction fuel with
  | zero => intro v h h1; omega
  | succ fuel ih =>
    intro v hfuel _ S A s hI hvD hin hne hhd
    obtain ⟨s1, hs1⟩ : ∃ s1 : State T, s1 = { s with log := s.log ++ [(v, args g heads given val v)] } := ⟨_, rfl⟩
    have hev : evaluated s1 = evaluated s ++ [v] := by rw [hs1]; simp [evaluated]
    have hvA : ¬ A v := fun h => hvD (hI.active v h)
    have hnoout : ∀ e ∈ outputs g v, ¬ S e := by
      intro e he h
      have := (hI.served e h).2
      rw [((mem_outputs g v e).mp he).2] at this
      exact hvD this
    have hcond : ∀ w, (w ∉ evaluated s ∨ A w) → (w ∉ evaluated s1 ∨ (A w ∨ w = v)) := by
      intro w h
      rw [hev]
      by_cases hwv : w = v
      · exact Or.inr (Or.inr hwv)
      · rcases h with h | h
        · left; simp [h, hwv]
        · exact Or.inr (Or.inl h)
    have hcond' : ∀ w, (w ∉ evaluated s1 ∨ (A w ∨ w = v)) → (w ∉ evaluated s ∨ A w) := by
      intro w h
      rw [hev] at h
      rcases h with h | h | h
      · left; intro h2; exact h (by simp [h2])
      · exact Or.inr h
      · subst h; exact Or.inl hvD
    have hdone1 : ∀ w, w ∉ heads → (w ∈ evaluated s1 ↔ inputs g w ≠ [] ∧ ∀ e ∈ inputs g w, S e) := by
      intro w hw
      rw [hev]
      by_cases hwv : w = v
      · subst hwv
        exact ⟨fun _ => ⟨hne hw, hin⟩, fun _ => by simp⟩
      · have := hI.done w hw (by simp; exact fun h => hwv h.symm)
        simp [this, hwv]
    have honce1 : (evaluated s1).Nodup := by
      rw [hev]
      exact List.nodup_append.mpr ⟨hI.once, by simp, by
        intro a ha b hb h
        simp at hb
        subst hb; subst h
        exact hvD ha⟩
    have hright1 : ∀ p ∈ s1.log, p.2 = args g heads given val p.1 := by
      intro p hp
      rw [hs1] at hp
      rcases List.mem_append.mp hp with hp | hp
      · exact hI.right p hp
      · simp at hp; subst hp; rfl
    have horder1 : ∀ a w b, evaluated s1 = a ++ w :: b → ∀ e ∈ inputs g w, src g e ∈ a := by
      intro a w b h e he
      rw [hev] at h
      rcases List.eq_nil_or_concat b with hb | ⟨b', x, hb⟩
      · subst hb
        obtain ⟨h1, h2⟩ := List.append_inj' h rfl
        simp only [List.cons.injEq, and_true] at h2
        subst h2
        rw [← h1]
        exact (hI.served e (hin e he)).2
      · subst hb
        rw [List.concat_eq_append, ← List.cons_append, ← List.append_assoc] at h
        obtain ⟨h1, _⟩ := List.append_inj' h rfl
        exact hI.order a w b' h1 e he
    rw [doForward]
    dsimp only
    rw [← hs1, ← hval v]
    split
    · rename_i hem
      have hno : outputs g v = [] := by simpa using hem
      obtain ⟨s2, hs2⟩ : ∃ s2 : State T, s2 = { s1 with output := fun w => if w = v then some (val v) else s1.output w } := ⟨_, rfl⟩
      have hev2 : evaluated s2 = evaluated s ++ [v] := by rw [← hev, hs2]; rfl
      have hp2 : s2.pending = s.pending := by rw [hs2, hs1]
      have hl2 : evaluated s2 = evaluated s1 := by rw [hev, hev2]
      refine ⟨s2, S, by rw [hs2, hs1], ?_, ?_, ?_, fun _ h => h, fun _ h => Or.inl h, by rw [hno]; simp, ?_⟩
      · constructor
        · intro e h1 h2 h3
          rw [hl2] at h3
          rw [hp2]
          exact hI.full e h1 h2 (hcond' _ h3)
        · intro e h1 h2
          rw [hl2] at h2
          rw [hp2]
          exact hI.empty e h1 fun h => h2 ⟨h.1, hcond _ h.2⟩
        · intro e h
          refine ⟨(hI.served e h).1, ?_⟩
          rw [hev2]; simp [(hI.served e h).2]
        · intro w hw _; rw [hl2]; exact hdone1 w hw
        · rw [hl2]; exact honce1
        · rw [hs2]; exact hright1
        · rw [hl2]; exact horder1
        · rintro w (hw | rfl)
          · rw [hev2]; simp [hI.active w hw]
          · rw [hev2]; simp
        · intro w hw hA e he
          rw [hev2] at hw
          rcases List.mem_append.mp hw with hw' | hw'
          · exact hI.complete w hw' (fun h => hA (Or.inl h)) e he
          · simp at hw'; exact absurd (Or.inr hw') hA
        · intro w hw ho
          rw [hev2] at hw
          rw [hs2]
          dsimp only
          by_cases hwv : w = v
          · rw [if_pos hwv, hwv]
          · rw [if_neg hwv]
            have : w ∈ evaluated s := by simpa [hwv] using hw
            have := hI.result w this ho
            rw [hs1]; exact this
      · intro w hw
        rw [hev2]; simp [hw]
      · rw [hev2]; simp
      · intro w hw
        rw [hev2] at hw
        rcases List.mem_append.mp hw with hw | hw
        · exact Or.inl hw
        · exact Or.inr (Or.inl (by simpa using hw))
    · rename_i hem
      have hout : outputs g v ≠ [] := by simpa using hem
      have hI1 : Inv g heads given val none S (fun w => A w ∨ w = v) s1 := by
        constructor
        · intro e h1 h2 h3
          have := hI.full e h1 h2 (hcond' _ h3)
          rw [hs1]; exact this
        · intro e h1 h2
          have := hI.empty e h1 fun h => h2 ⟨h.1, hcond _ h.2⟩
          rw [hs1]; exact this
        · intro e h
          refine ⟨(hI.served e h).1, ?_⟩
          rw [hev]; simp [(hI.served e h).2]
        · intro w hw _; exact hdone1 w hw
        · exact honce1
        · exact hright1
        · exact horder1
        · rintro w (hw | rfl)
          · rw [hev]; simp [hI.active w hw]
          · rw [hev]; simp
        · intro w hw hA e he
          rw [hev] at hw
          rcases List.mem_append.mp hw with hw | hw
          · exact hI.complete w hw (fun h => hA (Or.inl h)) e he
          · simp at hw; exact absurd (Or.inr hw) hA
        · intro w hw ho
          rw [hev] at hw
          by_cases hwv : w = v
          · subst hwv; exact absurd ho hout
          · have : w ∈ evaluated s := by simpa [hwv] using hw
            have := hI.result w this ho
            rw [hs1]; exact this
      have hrec : ∀ e ∈ outputs g v, Works g heads given val (doForward g layer fuel) (dst g e) := by
        intro e he
        obtain ⟨h1, h2⟩ := (mem_outputs g v e).mp he
        have := hrank e h1
        rw [h2] at this
        exact ih (dst g e) (by omega) (by omega)
      obtain ⟨s2, S2, h1, h2, h3, h4, h5, h6, h7⟩ := sendAll_spec g heads given val hheads (doForward g layer fuel) v
        (fun w => A w ∨ w = v) hrec (outputs g v) S s1 (fun _ h => h) (outputs_nodup g v) hI1 (by rw [hev]; simp) hnoout
      refine ⟨s2, S2, h1, h2, fun w hw => h3 w (by rw [hev]; simp [hw]), h3 v (by rw [hev]; simp), h4, ?_, h6, ?_⟩
      intro e h
      rcases h5 e h with h | h | h
      · exact Or.inl h
      · right; rw [((mem_outputs g v e).mp h).2]; exact hvD
      · right; intro hm; exact h (by rw [hev]; simp [hm])
      · intro w hw
        rcases h7 w hw with h | h
        · rw [hev] at h
          rcases List.mem_append.mp h with h | h
          · exact Or.inl h
          · exact Or.inr (Or.inl (by simpa using h))
        · exact Or.inr (Or.inr h)

theorem forwardAll_spec (g : Connections) (layer : Nat → List T → T) (heads : List Nat) (given val : Nat → T)
    (hval : IsValue g layer heads given val) (hheads : ∀ h ∈ heads, inputs g h = []) (rank : Nat → Nat) (depth : Nat)
    (hrank : Ranked g rank depth) (fuel : Nat) (hfuel : depth < fuel) (hs : List Nat) :
    ∀ (S : Nat → Prop) (s : State T), (∀ h ∈ hs, h ∈ heads) → hs.Nodup → (∀ h ∈ hs, h ∉ evaluated s) →
      (∀ h ∈ heads, h ∉ hs → h ∈ evaluated s) → Inv g heads given val none S (fun _ => False) s →
      ∃ s' S', forwardAll g layer fuel (hs.map fun v => (v, given v)) s = some s' ∧
        Inv g heads given val none S' (fun _ => False) s' ∧ (∀ h ∈ heads, h ∈ evaluated s') ∧
        (∀ w ∈ evaluated s', w ∈ heads ∨ inputs g w ≠ []) := by
  induction hs with
  | nil =>
    intro S s _ _ _ hall hI
    refine ⟨s, S, rfl, hI, fun h hh => hall h hh (by simp), ?_⟩
    intro w hw
    by_cases h : w ∈ heads
    · exact Or.inl h
    · exact Or.inr ((hI.done w h (by simp)).mp hw).1
  | cons v hs ih =>
    intro S s hsub hnd hnot hall hI
    have hvh := hsub v (by simp)
    rw [List.nodup_cons] at hnd
    have hIv : Inv g heads given val (some v) S (fun _ => False) s :=
      { hI with done := fun w hw _ => hI.done w hw (by simp) }
    obtain ⟨s1, S1, h1, h2, h3, h4, h5, h6, h7, h9⟩ :=
      doForward_works g layer heads given val hval hheads rank depth hrank fuel v (by omega) (by omega) S (fun _ => False) s hIv
        (hnot v (by simp)) (by rw [hheads v hvh]; simp) (fun h => absurd hvh h) (fun _ => hheads v hvh)
    have hargs : args g heads given val v = [given v] := by simp [args, hvh]
    rw [hargs] at h1
    have hI1 : Inv g heads given val none S1 (fun _ => False) s1 := by
      have hd : ∀ e, e < g.length → dst g e ≠ v := by
        intro e he h
        have := (mem_inputs g v e).mpr ⟨he, h⟩
        rw [hheads v hvh] at this
        simp at this
      constructor
      · intro e k1 k2 k3; exact h2.full e k1 k2 (k3.imp id fun h => absurd h id)
      · intro e k1 k2
        refine h2.empty e k1 fun h => k2 ⟨h.1, h.2.imp id fun h => ?_⟩
        rcases h with h | h
        · exact h
        · exact hd e k1 h
      · exact h2.served
      · exact h2.done
      · exact h2.once
      · exact h2.right
      · exact h2.order
      · intro w h; exact absurd h id
      · intro w hw _ e he
        by_cases hwv : w = v
        · subst hwv; exact h7 e he
        · exact h2.complete w hw (by rintro (h | h); exact h; exact hwv h) e he
      · exact h2.result
    have hheadD : ∀ h ∈ hs, h ∉ evaluated s1 := by
      intro h hh hm
      rcases h9 h hm with h8 | h8 | h8
      · exact hnot h (by simp [hh]) h8
      · subst h8; exact hnd.1 hh
      · exact h8 (hsub h (by simp [hh]))
    obtain ⟨s2, S2, k1, k2⟩ := ih S1 s1 (fun h hh => hsub h (by simp [hh])) hnd.2 hheadD (by
      intro h hh hn
      by_cases hv : h = v
      · subst hv; exact h4
      · exact h3 h (hall h hh (by simp [hv, hn]))) hI1
    exact ⟨s2, S2, by simp only [List.map_cons, forwardAll, h1, k1], k2⟩

end Verif.Graph
