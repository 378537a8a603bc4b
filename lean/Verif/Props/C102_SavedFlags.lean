import Verif.Model.SavedFlags

/-!
C102: saving a network writes the weights of every layer and loading reads them all, whatever was done with the network before.

The library remembers in every node whether it has been saved and skips nodes by that flag. For networks in which every node leads to an output, any sequence of training, saving and
loading leaves the flags in a state in which nothing is skipped (`C102_partial`). With a layer that leads to no output, a network that has been trained is saved without that layer
(`C102_violated`).
-/
namespace Verif.SavedFlags

/-- Node `u` is `v` or behind it. -/
inductive Reach (g : Graph) : Nat → Nat → Prop
  | refl (v) : Reach g v v
  | step {v c u} : c ∈ g.next v → Reach g c u → Reach g v u

/-- The node is a head or behind one. -/
def Used (g : Graph) (u : Nat) : Prop := ∃ h ∈ g.heads, Reach g h u

/-- Connections lead to nodes with greater numbers, and heads and outputs exist. -/
def Graph.Wf (g : Graph) : Prop :=
  (∀ v < g.outs.length, ∀ c ∈ g.next v, v < c ∧ c < g.outs.length) ∧ (∀ h ∈ g.heads, h < g.outs.length) ∧ ∀ o ∈ g.outputs, o < g.outs.length

instance (g : Graph) : Decidable g.Wf := by unfold Graph.Wf; infer_instance

theorem Reach.snoc {g : Graph} {v u c : Nat} (h : Reach g v u) (hc : c ∈ g.next u) : Reach g v c := by
  induction h with
  | refl v => exact .step hc (.refl c)
  | step h1 _ ih => exact .step h1 (ih hc)

theorem next_range (g : Graph) (v c : Nat) (h : c ∈ g.next v) : v < g.outs.length := by
  unfold Graph.next at h
  by_contra hn
  rw [List.getElem?_eq_none (by omega)] at h
  simp at h

/-- A path over nodes that are not marked as saved. -/
inductive Free (g : Graph) (s : Flags) : Nat → Nat → Prop
  | refl {v} : s v = false → Free g s v v
  | step {v c u} : s v = false → c ∈ g.next v → Free g s c u → Free g s v u

theorem Free.mono {g : Graph} {s s' : Flags} (hs : ∀ u, s u = false → s' u = false) {v u : Nat} (h : Free g s v u) : Free g s' v u := by
  induction h with
  | refl h => exact .refl (hs _ h)
  | step h1 h2 _ ih => exact .step (hs _ h1) h2 ih

theorem Free.last {g : Graph} {s : Flags} {v u : Nat} (h : Free g s v u) : s u = false := by
  induction h with
  | refl h => exact h
  | step _ _ _ ih => exact ih

theorem Free.reach {g : Graph} {s : Flags} {v u : Nat} (h : Free g s v u) : Reach g v u := by
  induction h with
  | refl h => exact .refl _
  | step _ h2 _ ih => exact .step h2 ih

/-! ### `markUnsaved` -/

structure Marked (g : Graph) (v : Nat) (s s' : Flags) : Prop where
  keep : ∀ u, s u = false → s' u = false
  new : ∀ u, s u = true → s' u = false → Free g s' v u ∧ ∀ c ∈ g.next u, s' c = false
  self : s' v = false

theorem mark_ok (g : Graph) (hg : g.Wf) (fuel v : Nat) (hv : v < g.outs.length) (hf : g.outs.length < fuel + v) (s : Flags) :
    ∃ s', mark g fuel v s = some s' ∧ Marked g v s s' := by
  induction fuel generalizing v s with
  | zero => omega
  | succ fuel ih =>
    rw [mark]
    by_cases hs : s v = true
    · rw [if_pos hs]
      -- the loop over the connections
      have loop : ∀ (cs : List Nat), (∀ c ∈ cs, c ∈ g.next v) → ∀ s0 : Flags, s0 v = false →
          ∃ s', cs.foldlM (fun s c => mark g fuel c s) s0 = some s' ∧ (∀ u, s0 u = false → s' u = false) ∧
            (∀ u, s0 u = true → s' u = false → Free g s' v u ∧ ∀ c ∈ g.next u, s' c = false) ∧ ∀ c ∈ cs, s' c = false := by
        intro cs
        induction cs with
        | nil =>
          intro _ s0 _
          refine ⟨s0, rfl, fun _ h => h, fun u h1 h2 => ?_, by simp⟩
          rw [h1] at h2; cases h2
        | cons c cs ihc =>
          intro hcs s0 h0
          have hc := hcs c List.mem_cons_self
          have hr := hg.1 v hv c hc
          obtain ⟨s1, e1, m1⟩ := ih c hr.2 (by omega) s0
          obtain ⟨s2, e2, k2, n2, a2⟩ := ihc (fun c hc => hcs c (List.mem_cons_of_mem _ hc)) s1 (m1.keep v h0)
          refine ⟨s2, by rw [List.foldlM_cons, e1]; exact e2, fun u hu => k2 u (m1.keep u hu), ?_, ?_⟩
          · intro u h1 h2
            by_cases h : s1 u = true
            · exact n2 u h h2
            · have h' : s1 u = false := by simpa using h
              obtain ⟨f, n⟩ := m1.new u h1 h'
              exact ⟨.step (k2 v (m1.keep v h0)) hc (f.mono k2), fun x hx => k2 x (n x hx)⟩
          · intro x hx
            rcases List.mem_cons.1 hx with rfl | hx
            · exact k2 _ m1.self
            · exact a2 x hx
      obtain ⟨s', e, k, n, a⟩ := loop (g.next v) (fun _ h => h) (set s v false) (by simp [set])
      have hsv : s' v = false := k v (by simp [set])
      refine ⟨s', e, ?_, ?_, hsv⟩
      · intro u hu
        apply k
        unfold set
        split
        · rfl
        · exact hu
      · intro u h1 h2
        by_cases huv : u = v
        · subst huv
          exact ⟨.refl hsv, a⟩
        · exact n u (by unfold set; rw [if_neg huv]; exact h1) h2
    · have hs' : s v = false := by simpa using hs
      rw [if_neg hs]
      refine ⟨s, rfl, fun _ h => h, fun u h1 h2 => ?_, hs'⟩
      rw [h1] at h2; cases h2

/-! ### `saveKnowledge` -/

theorem save_ok (g : Graph) (hg : g.Wf) (s : Flags) (fuel v : Nat) (hv : v < g.outs.length) (hf : g.outs.length < fuel + v) :
    ∃ l, save g s fuel v = some l ∧ ∀ u, u ∈ l ↔ Free g s v u := by
  induction fuel generalizing v with
  | zero => omega
  | succ fuel ih =>
    rw [save]
    by_cases hs : s v = true
    · rw [if_pos hs]
      refine ⟨[], rfl, fun u => ⟨by simp, fun h => ?_⟩⟩
      cases h with
      | refl h => rw [hs] at h; cases h
      | step h _ _ => rw [hs] at h; cases h
    · have hs' : s v = false := by simpa using hs
      rw [if_neg hs]
      have loop : ∀ cs : List Nat, (∀ c ∈ cs, c ∈ g.next v) → ∃ ls, cs.mapM (save g s fuel) = some ls ∧ ∀ u, u ∈ ls.flatten ↔ ∃ c ∈ cs, Free g s c u := by
        intro cs
        induction cs with
        | nil => intro _; exact ⟨[], rfl, by simp⟩
        | cons c cs ihc =>
          intro hcs
          have hr := hg.1 v hv c (hcs c List.mem_cons_self)
          obtain ⟨l, e, m⟩ := ih c hr.2 (by omega)
          obtain ⟨ls, es, ms⟩ := ihc fun c hc => hcs c (List.mem_cons_of_mem _ hc)
          refine ⟨l :: ls, by rw [List.mapM_cons, e, es]; rfl, fun u => ?_⟩
          rw [List.flatten_cons, List.mem_append, m, ms]
          simp
      obtain ⟨ls, e, m⟩ := loop (g.next v) fun _ h => h
      rw [e]
      refine ⟨_, rfl, fun u => ?_⟩
      rw [List.mem_cons, m]
      constructor
      · rintro (rfl | ⟨c, hc, h⟩)
        · exact .refl hs'
        · exact .step hs' hc h
      · intro h
        cases h with
        | refl _ => exact Or.inl rfl
        | step _ hc h => exact Or.inr ⟨_, hc, h⟩

/-! ### `loadKnowledge` -/

structure Loaded (g : Graph) (v : Nat) (s s' : Flags × List Nat) : Prop where
  keep : ∀ u, s.1 u = true → s'.1 u = true
  new : ∀ u, s.1 u = false → s'.1 u = true → u ∈ s'.2 ∧ Reach g v u ∧ ∀ c ∈ g.next u, s'.1 c = true
  read : ∀ u, u ∈ s.2 → u ∈ s'.2
  only : ∀ u, u ∈ s'.2 → u ∈ s.2 ∨ Reach g v u
  self : s'.1 v = true

theorem load_ok (g : Graph) (hg : g.Wf) (fuel v : Nat) (hv : v < g.outs.length) (hf : g.outs.length < fuel + v) (s : Flags × List Nat) :
    ∃ s', load g fuel v s = some s' ∧ Loaded g v s s' := by
  induction fuel generalizing v s with
  | zero => omega
  | succ fuel ih =>
    rw [load]
    by_cases hs : s.1 v = true
    · rw [if_pos hs]
      refine ⟨s, rfl, fun _ h => h, fun u h1 h2 => ?_, fun _ h => h, fun _ h => Or.inl h, hs⟩
      rw [h1] at h2; cases h2
    · rw [if_neg hs]
      have loop : ∀ (cs : List Nat), (∀ c ∈ cs, c ∈ g.next v) → ∀ s0 : Flags × List Nat,
          ∃ s', cs.foldlM (fun s c => load g fuel c s) s0 = some s' ∧ (∀ u, s0.1 u = true → s'.1 u = true) ∧
            (∀ u, s0.1 u = false → s'.1 u = true → u ∈ s'.2 ∧ Reach g v u ∧ ∀ c ∈ g.next u, s'.1 c = true) ∧ (∀ u, u ∈ s0.2 → u ∈ s'.2) ∧
            (∀ u, u ∈ s'.2 → u ∈ s0.2 ∨ Reach g v u) ∧ ∀ c ∈ cs, s'.1 c = true := by
        intro cs
        induction cs with
        | nil =>
          intro _ s0
          refine ⟨s0, rfl, fun _ h => h, fun u h1 h2 => ?_, fun _ h => h, fun _ h => Or.inl h, by simp⟩
          rw [h1] at h2; cases h2
        | cons c cs ihc =>
          intro hcs s0
          have hc := hcs c List.mem_cons_self
          have hr := hg.1 v hv c hc
          obtain ⟨s1, e1, m1⟩ := ih c hr.2 (by omega) s0
          obtain ⟨s2, e2, k2, n2, r2, o2, a2⟩ := ihc (fun c hc => hcs c (List.mem_cons_of_mem _ hc)) s1
          refine ⟨s2, by rw [List.foldlM_cons, e1]; exact e2, fun u hu => k2 u (m1.keep u hu), ?_, fun u hu => r2 u (m1.read u hu), ?_, ?_⟩
          · intro u h1 h2
            by_cases h : s1.1 u = true
            · obtain ⟨f1, f2, f3⟩ := m1.new u h1 h
              exact ⟨r2 u f1, .step hc f2, fun x hx => k2 x (f3 x hx)⟩
            · exact n2 u (by simpa using h) h2
          · intro u hu
            rcases o2 u hu with h | h
            · rcases m1.only u h with h | h
              · exact Or.inl h
              · exact Or.inr (.step hc h)
            · exact Or.inr h
          · intro x hx
            rcases List.mem_cons.1 hx with rfl | hx
            · exact k2 _ m1.self
            · exact a2 x hx
      obtain ⟨s', e, k, n, r, o, a⟩ := loop (g.next v) (fun _ h => h) (set s.1 v true, s.2 ++ [v])
      have hsv : s'.1 v = true := k v (by simp [set])
      refine ⟨s', e, ?_, ?_, fun u hu => r u (List.mem_append_left _ hu), ?_, hsv⟩
      · intro u hu
        apply k
        simp only [set]
        split
        · rfl
        · exact hu
      · intro u h1 h2
        by_cases huv : u = v
        · subst huv
          exact ⟨r _ (by simp), .refl _, a⟩
        · exact n u (by simp only [set]; rw [if_neg huv]; exact h1) h2
      · intro u hu
        rcases o u hu with h | h
        · rw [List.mem_append, List.mem_singleton] at h
          rcases h with h | rfl
          · exact Or.inl h
          · exact Or.inr (.refl _)
        · exact Or.inr h

/-- Everything behind a free path is read. -/
theorem Loaded.all {g : Graph} {v : Nat} {s s' : Flags × List Nat} (h : Loaded g v s s') {u : Nat} (hf : Free g s.1 v u) : s'.1 u = true ∧ u ∈ s'.2 := by
  have key : ∀ v, Free g s.1 v u → s'.1 v = true → s'.1 u = true := by
    intro v hf
    induction hf with
    | refl _ => exact fun h => h
    | step h1 h2 _ ih => exact fun h0 => ih hf ((h.new _ h1 h0).2.2 _ h2)
  have h1 := key v hf h.self
  exact ⟨h1, (h.new u hf.last h1).1⟩

/-! ### Whole networks -/

/-- Nodes behind a node that is not saved are not saved either. -/
def Good (g : Graph) (s : Flags) : Prop := ∀ u, Used g u → s u = false → ∀ c ∈ g.next u, s c = false

theorem saveAll_ok (g : Graph) (hg : g.Wf) (s : Flags) (hs : Good g s) :
    ∃ s' l, saveAll g s = some (s', l) ∧ (∀ u, u ∈ l ↔ Used g u) ∧ Good g s' := by
  have loop : ∀ (hs' : List Nat) (done : List Nat) (s : Flags) (l : List Nat), (∀ h ∈ hs', h ∈ g.heads) → Good g s →
      (∀ u, u ∈ l ↔ ∃ h ∈ done, Reach g h u) →
      ∃ s' l', hs'.foldlM (fun (s, l) h => (mark g (g.outs.length + 1) h s).bind fun s => (save g s (g.outs.length + 1) h).map fun l' => (s, l ++ l')) (s, l) =
        some (s', l') ∧ (∀ u, u ∈ l' ↔ ∃ h ∈ done ++ hs', Reach g h u) ∧ Good g s' := by
    intro hs'
    induction hs' with
    | nil => intro done s l _ hgood hl; exact ⟨s, l, rfl, by simpa using hl, hgood⟩
    | cons h hs' ih =>
      intro done s l hmem hgood hl
      have hh := hmem h List.mem_cons_self
      obtain ⟨s1, e1, m1⟩ := mark_ok g hg (g.outs.length + 1) h (hg.2.1 h hh) (by omega) s
      obtain ⟨l1, e2, ml⟩ := save_ok g hg s1 (g.outs.length + 1) h (hg.2.1 h hh) (by omega)
      have hgood1 : Good g s1 := by
        intro u hu hus c hc
        by_cases h0 : s u = true
        · exact (m1.new u h0 hus).2 c hc
        · exact m1.keep c (hgood u hu (by simpa using h0) c hc)
      have hfree : ∀ u, Reach g h u → Free g s1 h u := by
        have : ∀ v u, Reach g v u → Used g v → s1 v = false → Free g s1 v u := by
          intro v u hr
          induction hr with
          | refl v => exact fun _ hv => .refl hv
          | step hc _ ih =>
            intro hu hv
            obtain ⟨h', hh', hr'⟩ := hu
            exact .step hv hc (ih ⟨h', hh', hr'.snoc hc⟩ (hgood1 _ ⟨h', hh', hr'⟩ hv _ hc))
        exact fun u hu => this h u hu ⟨h, hh, .refl h⟩ m1.self
      obtain ⟨s', l', e, hl', hgood'⟩ := ih (done ++ [h]) s1 (l ++ l1) (fun h hh => hmem h (List.mem_cons_of_mem _ hh)) hgood1 (by
        intro u
        rw [List.mem_append, hl, ml]
        constructor
        · rintro (⟨h', a, b⟩ | b)
          · exact ⟨h', List.mem_append_left _ a, b⟩
          · exact ⟨h, by simp, b.reach⟩
        · rintro ⟨h', a, b⟩
          rw [List.mem_append, List.mem_singleton] at a
          rcases a with a | rfl
          · exact Or.inl ⟨h', a, b⟩
          · exact Or.inr (hfree u b))
      refine ⟨s', l', ?_, ?_, hgood'⟩
      · rw [List.foldlM_cons]
        simp only [e1, Option.bind_some, e2, Option.map_some, Option.bind_eq_bind]
        exact e
      · intro u
        rw [hl' u, List.append_assoc]; rfl
  obtain ⟨s', l, e, hl, hgood⟩ := loop g.heads [] s [] (fun _ h => h) hs (by simp)
  exact ⟨s', l, e, by simpa [Used] using hl, hgood⟩

theorem loadAll_ok (g : Graph) (hg : g.Wf) (s : Flags) (hs : Good g s) :
    ∃ s' l, loadAll g s = some (s', l) ∧ (∀ u, u ∈ l ↔ Used g u) ∧ Good g s' := by
  have loop : ∀ (hs' : List Nat) (done : List Nat) (s : Flags) (l : List Nat), (∀ h ∈ hs', h ∈ g.heads) →
      (∀ u, Used g u → s u = false → ∀ c ∈ g.next u, s c = false ∨ ∃ h ∈ done, Reach g h c) →
      (∀ u, u ∈ l ↔ ∃ h ∈ done, Reach g h u) → (∀ u, (∃ h ∈ done, Reach g h u) → s u = true) →
      ∃ s' l', hs'.foldlM (fun (s, l) h => (mark g (g.outs.length + 1) h s).bind fun s => load g (g.outs.length + 1) h (s, l)) (s, l) =
        some (s', l') ∧ (∀ u, u ∈ l' ↔ ∃ h ∈ done ++ hs', Reach g h u) ∧ ∀ u, (∃ h ∈ done ++ hs', Reach g h u) → s' u = true := by
    intro hs'
    induction hs' with
    | nil => intro done s l _ _ hl ht; exact ⟨s, l, rfl, by simpa using hl, by simpa using ht⟩
    | cons h hs' ih =>
      intro done s l hmem hgood hl ht
      have hh := hmem h List.mem_cons_self
      obtain ⟨s1, e1, m1⟩ := mark_ok g hg (g.outs.length + 1) h (hg.2.1 h hh) (by omega) s
      obtain ⟨⟨s2, l2⟩, e2, m2⟩ := load_ok g hg (g.outs.length + 1) h (hg.2.1 h hh) (by omega) (s1, l)
      have hgood1 : ∀ u, Used g u → s1 u = false → ∀ c ∈ g.next u, s1 c = false ∨ ∃ h ∈ done, Reach g h c := by
        intro u hu hus c hc
        by_cases h0 : s u = true
        · exact Or.inl ((m1.new u h0 hus).2 c hc)
        · rcases hgood u hu (by simpa using h0) c hc with h | h
          · exact Or.inl (m1.keep c h)
          · exact Or.inr h
      have hfree : ∀ u, Reach g h u → (∃ h ∈ done, Reach g h u) ∨ Free g s1 h u := by
        have : ∀ v u, Reach g v u → Used g v → s1 v = false → (∃ h ∈ done, Reach g h u) ∨ Free g s1 v u := by
          intro v u hr
          induction hr with
          | refl v => exact fun _ hv => Or.inr (.refl hv)
          | step hc hrest ih =>
            intro hu hv
            obtain ⟨h', hh', hr'⟩ := hu
            rcases hgood1 _ ⟨h', hh', hr'⟩ hv _ hc with h1 | ⟨h1, hd, hr1⟩
            · rcases ih ⟨h', hh', hr'.snoc hc⟩ h1 with h2 | h2
              · exact Or.inl h2
              · exact Or.inr (.step hv hc h2)
            · left
              refine ⟨h1, hd, ?_⟩
              clear ih hv hr' hc
              induction hrest with
              | refl _ => exact hr1
              | step a _ ih => exact ih (hr1.snoc a)
        exact fun u hu => this h u hu ⟨h, hh, .refl h⟩ m1.self
      have hread : ∀ u, Reach g h u → u ∈ l2 := by
        intro u hu
        rcases hfree u hu with hd | hf
        · exact m2.read u ((hl u).2 hd)
        · exact (m2.all hf).2
      have htrue : ∀ u, (∃ h' ∈ done ++ [h], Reach g h' u) → s2 u = true := by
        rintro u ⟨h', a, b⟩
        have hcase : (∃ h ∈ done, Reach g h u) ∨ Free g s1 h u := by
          rw [List.mem_append, List.mem_singleton] at a
          rcases a with a | rfl
          · exact Or.inl ⟨h', a, b⟩
          · exact hfree u b
        rcases hcase with hd | hf
        · by_cases h1 : s1 u = true
          · exact m2.keep u h1
          · exact (m2.all (m1.new u (ht u hd) (by simpa using h1)).1).1
        · exact (m2.all hf).1
      obtain ⟨s', l', e, hl', ht'⟩ := ih (done ++ [h]) s2 l2 (fun h hh => hmem h (List.mem_cons_of_mem _ hh)) (by
          intro u hu hus c hc
          have h1 : s1 u = false := by
            by_contra h1
            have := m2.keep u (by simpa using h1)
            simp only at this
            rw [hus] at this; cases this
          rcases hgood1 u hu h1 c hc with h2 | ⟨h', a, b⟩
          · by_cases h3 : s2 c = true
            · exact Or.inr ⟨h, by simp, (m2.new c h2 h3).2.1⟩
            · exact Or.inl (by simpa using h3)
          · exact Or.inr ⟨h', List.mem_append_left _ a, b⟩)
        (by
          intro u
          constructor
          · intro hu
            rcases m2.only u hu with h1 | h1
            · obtain ⟨h', a, b⟩ := (hl u).1 h1
              exact ⟨h', List.mem_append_left _ a, b⟩
            · exact ⟨h, by simp, h1⟩
          · rintro ⟨h', a, b⟩
            rw [List.mem_append, List.mem_singleton] at a
            rcases a with a | rfl
            · exact m2.read u ((hl u).2 ⟨h', a, b⟩)
            · exact hread u b) htrue
      refine ⟨s', l', ?_, ?_, ?_⟩
      · rw [List.foldlM_cons]
        simp only [e1, Option.bind_some, e2, Option.bind_eq_bind]
        exact e
      · intro u
        rw [hl' u, List.append_assoc]; rfl
      · intro u hu
        apply ht'
        rw [List.append_assoc]; exact hu
  obtain ⟨s', l, e, hl, ht⟩ := loop g.heads [] s [] (fun _ h => h) (fun u hu h c hc => Or.inl (hs u hu h c hc)) (by simp) (by simp)
  refine ⟨s', l, e, by simpa [Used] using hl, ?_⟩
  intro u hu h
  have := ht u (by simpa [Used] using hu)
  rw [this] at h; cases h

theorem mem_prev (g : Graph) (u v : Nat) : u ∈ g.prev v ↔ v ∈ g.next u := by
  unfold Graph.prev
  rw [List.mem_filter, List.mem_range, List.contains_iff_mem]
  exact ⟨fun h => h.2, fun h => ⟨next_range g u v h, h⟩⟩

theorem applyFlags_ok (g : Graph) (hg : g.Wf) (fuel v : Nat) (hf : v < fuel) (s : Flags) :
    ∃ s', applyFlags g fuel v s = some s' ∧ (∀ u, s u = false → s' u = false) ∧ ∀ u, Reach g u v → s' u = false := by
  induction fuel generalizing v s with
  | zero => omega
  | succ fuel ih =>
    rw [applyFlags]
    have loop : ∀ us : List Nat, (∀ u ∈ us, u ∈ g.prev v) → ∀ s : Flags, ∃ s', us.foldlM (fun s u => applyFlags g fuel u s) s = some s' ∧
        (∀ u, s u = false → s' u = false) ∧ ∀ u ∈ us, ∀ w, Reach g w u → s' w = false := by
      intro us
      induction us with
      | nil => intro _ s; exact ⟨s, rfl, fun _ h => h, by simp⟩
      | cons u us ihu =>
        intro hus s
        have hu := (mem_prev g u v).1 (hus u List.mem_cons_self)
        have := (hg.1 u (next_range g u v hu) v hu).1
        obtain ⟨s1, e1, k1, a1⟩ := ih u (by omega) s
        obtain ⟨s2, e2, k2, a2⟩ := ihu (fun u hu => hus u (List.mem_cons_of_mem _ hu)) s1
        refine ⟨s2, by rw [List.foldlM_cons, e1]; exact e2, fun w hw => k2 w (k1 w hw), ?_⟩
        intro x hx w hw
        rcases List.mem_cons.1 hx with rfl | hx
        · exact k2 w (a1 w hw)
        · exact a2 x hx w hw
    obtain ⟨s', e, k, a⟩ := loop (g.prev v) (fun _ h => h) s
    rw [e]
    refine ⟨_, rfl, ?_, ?_⟩
    · intro u hu
      simp only [set]
      split
      · rfl
      · exact k u hu
    · intro u hu
      simp only [set]
      split
      · rfl
      · rename_i hne
        -- the last node before `v`
        have last : ∀ u w, Reach g u w → u ≠ w → ∃ x, Reach g u x ∧ w ∈ g.next x := by
          intro u w hr
          induction hr with
          | refl v => exact fun h => absurd rfl h
          | @step v' c' u' hc hrest ih =>
            intro _
            by_cases h : c' = u'
            · subst h; exact ⟨v', .refl _, hc⟩
            · obtain ⟨x, hx, hn⟩ := ih h
              exact ⟨x, .step hc hx, hn⟩
        obtain ⟨x, hx, hn⟩ := last u v hu hne
        exact a x ((mem_prev g x v).2 hn) u hx

/-- Every node leads to an output. -/
def Leads (g : Graph) : Prop := ∀ u, Used g u → ∃ o ∈ g.outputs, Reach g u o

theorem trainBatch_ok (g : Graph) (hg : g.Wf) (hl : Leads g) (s : Flags) : ∃ s', trainBatch g s = some s' ∧ Good g s' := by
  have loop : ∀ os : List Nat, (∀ o ∈ os, o ∈ g.outputs) → ∀ s : Flags, ∃ s', os.foldlM (fun s o => applyFlags g (g.outs.length + 1) o s) s = some s' ∧
      (∀ u, s u = false → s' u = false) ∧ ∀ o ∈ os, ∀ w, Reach g w o → s' w = false := by
    intro os
    induction os with
    | nil => intro _ s; exact ⟨s, rfl, fun _ h => h, by simp⟩
    | cons o os ih =>
      intro hos s
      have := hg.2.2 o (hos o List.mem_cons_self)
      obtain ⟨s1, e1, k1, a1⟩ := applyFlags_ok g hg (g.outs.length + 1) o (by omega) s
      obtain ⟨s2, e2, k2, a2⟩ := ih (fun o ho => hos o (List.mem_cons_of_mem _ ho)) s1
      refine ⟨s2, by rw [List.foldlM_cons, e1]; exact e2, fun w hw => k2 w (k1 w hw), ?_⟩
      intro x hx w hw
      rcases List.mem_cons.1 hx with rfl | hx
      · exact k2 w (a1 w hw)
      · exact a2 x hx w hw
  obtain ⟨s', e, _, a⟩ := loop g.outputs (fun _ h => h) s
  refine ⟨s', e, ?_⟩
  intro u hu _ c hc
  obtain ⟨h, hh, hr⟩ := hu
  obtain ⟨o, ho, hro⟩ := hl c ⟨h, hh, hr.snoc hc⟩
  exact a o ho c hro

theorem after_ok (g : Graph) (hg : g.Wf) (hl : Leads g) (ops : List Op) : ∃ s, after g ops = some s ∧ Good g s := by
  have key : ∀ (ops : List Op) (s : Flags), Good g s → ∃ s', ops.foldlM (act g) s = some s' ∧ Good g s' := by
    intro ops
    induction ops with
    | nil => intro s hs; exact ⟨s, rfl, hs⟩
    | cons o ops ih =>
      intro s hs
      have : ∃ s1, act g s o = some s1 ∧ Good g s1 := by
        cases o with
        | train => exact trainBatch_ok g hg hl s
        | save =>
          obtain ⟨s', l, e, _, h⟩ := saveAll_ok g hg s hs
          exact ⟨s', by simp [act, e], h⟩
        | load =>
          obtain ⟨s', l, e, _, h⟩ := loadAll_ok g hg s hs
          exact ⟨s', by simp [act, e], h⟩
      obtain ⟨s1, e1, h1⟩ := this
      obtain ⟨s2, e2, h2⟩ := ih s1 h1
      exact ⟨s2, by rw [List.foldlM_cons, e1]; exact e2, h2⟩
  exact key ops _ fun u _ h => by cases h

/-- C102. After any sequence of training, saving and loading, saving writes and loading reads exactly the nodes of the network, if every node leads to an output. -/
theorem C102_partial (g : Graph) (hg : g.Wf) (hl : Leads g) (ops : List Op) :
    ∃ s, after g ops = some s ∧ (∃ s' l, saveAll g s = some (s', l) ∧ ∀ u, u ∈ l ↔ Used g u) ∧ ∃ s' l, loadAll g s = some (s', l) ∧ ∀ u, u ∈ l ↔ Used g u := by
  obtain ⟨s, e, h⟩ := after_ok g hg hl ops
  obtain ⟨s1, l1, e1, h1, _⟩ := saveAll_ok g hg s h
  obtain ⟨s2, l2, e2, h2, _⟩ := loadAll_ok g hg s h
  exact ⟨s, e, ⟨s1, l1, e1, h1⟩, ⟨s2, l2, e2, h2⟩⟩

/-- Two inputs that are joined, with two outputs. -/
def joined : Graph := ⟨[[2], [2, 4], [3], [], []], [0, 1], [3, 4]⟩

theorem joined_leads : Leads joined := by
  rintro u ⟨h, hh, hr⟩
  have key : ∀ v u, Reach joined v u → v < 5 → u < 5 := by
    intro v u hr
    induction hr with
    | refl v => exact fun h => h
    | @step v c u hc _ ih =>
      intro hv
      apply ih
      have : joined.Wf := by decide
      exact (this.1 v (next_range joined v c hc) c hc).2
  have hu : u < 5 := key h u hr (by
    have : joined.Wf := by decide
    exact this.2.1 h hh)
  have : u = 0 ∨ u = 1 ∨ u = 2 ∨ u = 3 ∨ u = 4 := by omega
  rcases this with rfl | rfl | rfl | rfl | rfl
  · exact ⟨3, by decide, .step (c := 2) (by decide) (.step (c := 3) (by decide) (.refl 3))⟩
  · exact ⟨4, by decide, .step (c := 4) (by decide) (.refl 4)⟩
  · exact ⟨3, by decide, .step (c := 3) (by decide) (.refl 3)⟩
  · exact ⟨3, by decide, .refl 3⟩
  · exact ⟨4, by decide, .refl 4⟩

/-- `C102_partial` applies. -/
example : joined.Wf ∧ Leads joined := ⟨by decide, joined_leads⟩

/-- The nodes of `joined` are saved also after they have been loaded in part by way of the other input. -/
example : ((after joined [.save, .load, .train, .load]).bind (saveAll joined)).map (·.2) = some [0, 2, 3, 1, 2, 3, 4] := by decide +kernel

/-- A network with a layer (node 3) that leads to no output. -/
def deadEnd : Graph := ⟨[[1], [2, 3], [], []], [0], [2]⟩

/-- C102, violated: a new network with a layer that leads to no output is saved completely, after training that layer is left out. -/
theorem C102_violated :
    deadEnd.Wf ∧ ((after deadEnd []).bind (saveAll deadEnd)).map (·.2) = some [0, 1, 2, 3] ∧
      ((after deadEnd [.train]).bind (saveAll deadEnd)).map (·.2) = some [0, 1, 2] := by
  decide +kernel

end Verif.SavedFlags
