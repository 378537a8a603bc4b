import Verif.Lemmas.Wiring
import Mathlib.Logic.Relation

/-! The order in which the vertices of a description are built. -/

namespace Verif.Wiring
open Verif Verif.Dsl Verif.Enums

/-- No vertex is made from several others. -/
def Forest (d : Dsl) : Prop := ∀ x ∈ d, x.2.length ≤ 1

instance (d : Dsl) : Decidable (Forest d) := by unfold Forest; infer_instance

theorem Forest.at {d : Dsl} (h : Forest d) (v : Nat) : (parentsAt d v).length ≤ 1 := by
  unfold parentsAt
  cases hv : vertexAt d v with
  | none => simp
  | some x =>
    simp only [Option.map_some, Option.getD_some]
    apply h
    unfold vertexAt at hv
    split at hv
    · cases hv
    · exact List.mem_of_getElem? hv

theorem Forest.single {d : Dsl} (h : Forest d) (v p : Nat) (hp : p ∈ parentsAt d v) : parentsAt d v = [p] := by
  have := h.at v
  cases hl : parentsAt d v with
  | nil => rw [hl] at hp; cases hp
  | cons q l =>
    rw [hl] at this hp
    cases l with
    | nil => simp only [List.mem_singleton] at hp; rw [hp]
    | cons _ _ => simp at this

theorem Forest.nodup {d : Dsl} (h : Forest d) (v : Nat) : (parentsAt d v).Nodup := by
  have := h.at v
  cases hl : parentsAt d v with
  | nil => exact List.nodup_nil
  | cons q l =>
    rw [hl] at this
    cases l with
    | nil => simp
    | cons _ _ => simp at this

theorem addedTo_mem (d : Dsl) (v p : Nat) (h : addedTo d v = p) (hp : 1 ≤ p) : p ∈ parentsAt d v := by
  unfold addedTo at h
  cases hl : (parentsAt d v).getLast? with
  | none => rw [hl] at h; simp at h; omega
  | some q =>
    rw [hl] at h
    simp only [Option.getD_some] at h
    rw [← h]
    exact List.mem_of_getLast? hl

theorem Forest.addedTo {d : Dsl} (h : Forest d) (v p : Nat) (hp : p ∈ parentsAt d v) : Dsl.addedTo d v = p := by
  unfold Dsl.addedTo
  rw [h.single v p hp]; rfl

/-- The state when the vertices from `lo` to `k` have been built, in this order, after those in `base`. -/
def Upto (base : List Nat) (lo : Nat) (s : Wires) (k : Nat) : Prop := s.seen = base ++ List.range' lo (k + 1 - lo)

/-- Building a vertex of a depth-first forest `e` builds the vertices below it in the order of their numbers. `g` is a description with the same edges from
`lo` on. -/
theorem forest_wire (e g : Dsl) (hf : Forward e) (hdf : DepthFirst e) (hfo : Forest e) (lo : Nat) (hlo : 1 ≤ lo) (hlen : g.length = e.length)
    (hsame : ∀ v, lo ≤ v → children g v = children e v) (base : List Nat) (hbase : ∀ u ∈ base, u < lo) (fuel v : Nat) (h1 : lo ≤ v) (h2 : v ≤ e.length)
    (hfuel : e.length < fuel + v) (s : Wires) (hs : Upto base lo s (v - 1)) :
    ∃ s' k, wire g fuel v s = some s' ∧ Upto base lo s' k ∧ v ≤ k ∧ k ≤ e.length ∧ (∀ w, v ≤ w → w ≤ k → v ∈ lineage e w) ∧
      (k < e.length → v ∉ lineage e (k + 1)) := by
  induction fuel generalizing v s with
  | zero => omega
  | succ fuel ih =>
    obtain ⟨x, hx⟩ := vertexAt_some g v (by omega) (by omega)
    have hv : v ∉ s.seen := by
      unfold Upto at hs
      rw [hs, List.mem_append]
      rintro (h | h)
      · have := hbase v h; omega
      · rw [List.mem_range'_1] at h; omega
    rw [wire_succ g fuel v s x hx hv, hsame v h1]
    unfold loop
    apply edge_loop_rel e hf hdf (Upto base lo) _ v
    · intro c t ht c1 c2 hadd hlt
      obtain ⟨s', k, e1, e2, e3⟩ := ih c (by omega) c2 (by omega) t ht
      refine ⟨_, k, by rw [e1]; rfl, ?_, e3⟩
      unfold Upto at e2 ⊢
      exact e2
    · intro c k t ht hd
      have := hfo.single c v (List.dropLast_subset _ hd)
      rw [this] at hd
      cases hd
    · unfold Upto at hs ⊢
      simp only
      rw [hs, List.append_assoc]
      congr 1
      rw [show v + 1 - lo = (v - 1 + 1 - lo) + 1 by omega, List.range'_concat, show lo + 1 * (v - 1 + 1 - lo) = v by omega]
    · exact Nat.le_refl _
    · exact h2
    · intro w hw1 hw2
      have : w = v := by omega
      subst this
      exact lineage_self e hf w
    · intro _ u hu hvu hne
      have a := lineage_le e hf _ _ hu
      have b := lineage_le e hf _ _ hvu
      omega
    · exact children_sorted e v hfo.nodup
    · intro c hc
      have := (mem_children e v c).1 hc
      exact ⟨(hf c v this).2, (parentsAt_range e c v this).2⟩
    · intro c hc
      exact Or.inl (hfo.addedTo c v ((mem_children e v c).1 hc))
    · intro c hc1 hc2 hadd
      exact (mem_children e v c).2 (addedTo_mem e c v hadd (by omega))

/-- The inputs of a description are the vertices that were not added to others. -/
theorem heads_added (d : Dsl) (hs : AllSound d) (hroot : Rooted d) (c : Nat) : c ∈ heads d ↔ 1 ≤ c ∧ c ≤ d.length ∧ addedTo d c = 0 := by
  rw [mem_heads]
  constructor
  · rintro ⟨⟨x, ps⟩, hx, ha⟩
    have hr := vertexAt_range d c _ hx
    refine ⟨hr.1, hr.2, ?_⟩
    have hps : parentsAt d c = ps := by unfold parentsAt; rw [hx]; rfl
    rcases (hs c x ps hx).2 with ⟨_, rfl, _⟩ | ⟨h, _⟩ | ⟨h, _⟩
    · unfold addedTo; rw [hps]; rfl
    · simp only at ha; rw [h] at ha; cases ha
    · simp only at ha; rw [h] at ha; cases ha
  · rintro ⟨h1, h2, h3⟩
    obtain ⟨⟨x, ps⟩, hx⟩ := vertexAt_some d c h1 h2
    refine ⟨_, hx, hroot c _ hx ?_⟩
    have hps : parentsAt d c = ps := by unfold parentsAt; rw [hx]; rfl
    simp only
    by_contra hne
    have hlast : addedTo d c ∈ ps := by
      unfold addedTo
      rw [hps, List.getLast?_eq_some_getLast hne]
      exact List.getLast_mem hne
    have := hs.forward c _ (by rw [hps]; exact hlast)
    omega

/-- A depth-first forest is built in the order of its description. -/
theorem forest_order (d : Dsl) (hs : AllSound d) (hroot : Rooted d) (hdf : DepthFirst d) (hfo : Forest d) (w : Wires) (hw : wires d = some w) :
    w.seen = List.range' 1 d.length := by
  have hf := hs.forward
  obtain ⟨s', k, e, hu, _, hkn, _, hout⟩ := edge_loop_rel d hf hdf (Upto [] 1) (fun s v => wire d (d.length + 1) v s) 0
    (by
      intro c s hR c1 c2 _ _
      exact forest_wire d d hf hdf hfo 1 (Nat.le_refl _) rfl (fun _ _ => rfl) [] (by simp) _ c c1 c2 (by omega) s hR)
    (by
      intro c k s _ h
      have := hf c 0 (List.dropLast_subset _ h)
      omega)
    (heads d) 0 ⟨[], [], []⟩ rfl (Nat.le_refl _) (by omega)
    (by intro w _ _; exact lineage_root d hf w)
    (by
      intro _ u hu _ hne
      rw [lineage_zero d] at hu
      simp at hu
      exact absurd hu hne)
    (heads_sorted d)
    (by intro c hc; have := (heads_added d hs hroot c).1 hc; omega)
    (by intro c hc; exact Or.inl ((heads_added d hs hroot c).1 hc).2.2)
    (by intro c h1 h2 h3; exact (heads_added d hs hroot c).2 ⟨by omega, h2, h3⟩)
  have hkd : k = d.length := by
    by_contra hne
    exact hout (by omega) (lineage_root d hf _)
  unfold wires at hw
  rw [e] at hw
  cases hw
  unfold Upto at hu
  rw [hu, hkd]; simp

/-! ### The vertices before some other vertex -/

/-- What is left of the state when vertices after `m` are forgotten. -/
def restrict (m : Nat) (s : Wires) : Wires := ⟨s.seen.filter (· ≤ m), s.conns.filter (·.2 ≤ m), s.outs.filter (· ≤ m)⟩

theorem children_take (d : Dsl) (m v : Nat) : children (d.take m) v = (children d v).filter (· ≤ m) := by
  unfold children
  have key : ∀ n, n ≤ d.length → ((List.range n).flatMap fun i => List.replicate ((d[i]?.map fun x => x.2.count v).getD 0) (i + 1)).filter (· ≤ m) =
      (List.range (min m n)).flatMap fun i => List.replicate (((d.take m)[i]?.map fun x => x.2.count v).getD 0) (i + 1) := by
    intro n
    induction n with
    | zero => intro _; simp
    | succ n ih =>
      intro hn
      rw [List.range_succ, List.flatMap_append, List.filter_append, ih (by omega)]
      by_cases h : n + 1 ≤ m
      · rw [Nat.min_eq_right (by omega), Nat.min_eq_right h, List.range_succ, List.flatMap_append]
        congr 1
        simp only [List.flatMap_cons, List.flatMap_nil, List.append_nil]
        rw [List.getElem?_take_of_lt (by omega), List.filter_eq_self.2]
        intro a ha
        rw [List.mem_replicate] at ha
        simp only [decide_eq_true_eq]; omega
      · rw [Nat.min_eq_left (by omega : m ≤ n), Nat.min_eq_left (by omega : m ≤ n + 1)]
        have : (List.flatMap (fun i => List.replicate ((d[i]?.map fun x => x.2.count v).getD 0) (i + 1)) [n]).filter (· ≤ m) = [] := by
          rw [List.filter_eq_nil_iff]
          intro a ha
          simp only [List.flatMap_cons, List.flatMap_nil, List.append_nil, List.mem_replicate] at ha
          simp only [decide_eq_true_eq]; omega
        rw [this, List.append_nil]
  rw [key _ (Nat.le_refl _), List.length_take]

theorem heads_take (d : Dsl) (m : Nat) : heads (d.take m) = (heads d).filter (· ≤ m) := by
  have h1 := heads_sorted (d.take m)
  have h2 := (heads_sorted d).filter (p := fun v => decide (v ≤ m))
  apply List.Perm.eq_of_pairwise (le := (· < ·)) _ h1 h2
  · rw [List.perm_ext_iff_of_nodup (h1.imp fun h => by omega) (h2.imp fun h => by omega)]
    intro v
    rw [List.mem_filter, mem_heads, mem_heads]
    constructor
    · rintro ⟨x, hx, ha⟩
      have hr := vertexAt_range _ _ _ hx
      rw [List.length_take] at hr
      rw [vertexAt_take d m v (by omega)] at hx
      exact ⟨⟨x, hx, ha⟩, by simp only [decide_eq_true_eq]; omega⟩
    · rintro ⟨⟨x, hx, ha⟩, hm⟩
      simp only [decide_eq_true_eq] at hm
      exact ⟨x, by rw [vertexAt_take d m v hm]; exact hx, ha⟩
  · intro a b _ _ h h'; omega

/-- Building a vertex, seen by the vertices up to `m`: nothing happens for later vertices, and for the others it is as if the later ones did not exist. -/
theorem wire_take (d : Dsl) (hd : Forward d) (m fuel v : Nat) (s s' : Wires) (h : wire d fuel v s = some s') :
    (m < v → restrict m s' = restrict m s) ∧ (v ≤ m → wire (d.take m) fuel v (restrict m s) = some (restrict m s')) := by
  induction fuel generalizing v s s' with
  | zero => cases h
  | succ fuel ih =>
    by_cases hv : v ∈ s.seen
    · rw [wire_seen d fuel v s hv] at h
      cases h
      refine ⟨fun _ => rfl, fun hm => wire_seen _ _ _ _ ?_⟩
      exact List.mem_filter.2 ⟨hv, by simpa using hm⟩
    · obtain ⟨x, hx⟩ : ∃ x, vertexAt d v = some x := by
        cases hx : vertexAt d v with
        | none => rw [wire, if_neg hv, hx] at h; cases h
        | some x => exact ⟨x, rfl⟩
      rw [wire_succ d fuel v s x hx hv] at h
      -- the loop
      have hloop : ∀ (l : List Nat) (t t' : Wires), (∀ c ∈ l, v < c) → loop d fuel v t l = some t' →
          (m < v → restrict m t' = restrict m t) ∧ (v ≤ m → loop (d.take m) fuel v (restrict m t) (l.filter (· ≤ m)) = some (restrict m t')) := by
        intro l
        induction l with
        | nil =>
          intro t t' _ ht
          have : t = t' := Option.some.inj ht
          subst this
          exact ⟨fun _ => rfl, fun _ => rfl⟩
        | cons c l ihl =>
          intro t t' hl ht
          rw [loop_cons] at ht
          cases hc : wire d fuel c t with
          | none => rw [hc] at ht; cases ht
          | some u =>
            rw [hc, Option.bind_some] at ht
            obtain ⟨g1, g2⟩ := ihl _ t' (fun c hc => hl c (List.mem_cons_of_mem _ hc)) ht
            obtain ⟨g3, g4⟩ := ih c t u hc
            have hvc := hl c List.mem_cons_self
            have hskip : m < c → restrict m { u with conns := u.conns ++ [(v, c)] } = restrict m u := by
              intro hmc
              unfold restrict
              simp only [List.filter_append]
              congr 1
              rw [List.filter_cons, if_neg (by simpa using hmc)]; simp
            constructor
            · intro hm
              rw [g1 hm, hskip (by omega), g3 (by omega)]
            · intro hm
              rw [List.filter_cons]
              by_cases hcm : c ≤ m
              · rw [if_pos (by simpa using hcm), loop_cons, g4 hcm, Option.bind_some, ← g2 hm]
                congr 1
                unfold restrict
                simp only [List.filter_append]
                congr 1
                rw [List.filter_cons, if_pos (by simpa using hcm)]; simp
              · rw [if_neg (by simpa using hcm), ← g3 (by omega), ← hskip (by omega)]
                exact g2 hm
      have hch : ∀ c ∈ children d v, v < c := fun c hc => (hd c v ((mem_children d v c).1 hc)).2
      obtain ⟨g1, g2⟩ := hloop (children d v) _ s' hch h
      constructor
      · intro hm
        rw [g1 hm]
        unfold restrict
        simp only [List.filter_append]
        rw [show List.filter (fun x => decide (x ≤ m)) [v] = [] by rw [List.filter_cons, if_neg (by simpa using hm)]; rfl, List.append_nil]
        congr 1
        split
        · rw [List.filter_append, show List.filter (fun x => decide (x ≤ m)) [v] = [] by rw [List.filter_cons, if_neg (by simpa using hm)]; rfl,
            List.append_nil]
        · rfl
      · intro hm
        have hv' : v ∉ (restrict m s).seen := fun h => hv (List.mem_of_mem_filter h)
        rw [wire_succ (d.take m) fuel v (restrict m s) x (by rw [vertexAt_take d m v hm]; exact hx) hv', children_take, ← g2 hm]
        congr 1
        unfold restrict
        simp only [List.filter_append]
        rw [show List.filter (fun x => decide (x ≤ m)) [v] = [v] by rw [List.filter_cons, if_pos (by simpa using hm)]; rfl]
        congr 1
        split
        · rw [List.filter_append, show List.filter (fun x => decide (x ≤ m)) [v] = [v] by rw [List.filter_cons, if_pos (by simpa using hm)]; rfl]
        · rfl

/-- More fuel makes no difference. -/
theorem wire_fuel (d : Dsl) (fuel fuel' v : Nat) (s s' : Wires) (hle : fuel ≤ fuel') (h : wire d fuel v s = some s') : wire d fuel' v s = some s' := by
  induction fuel generalizing fuel' v s s' with
  | zero => cases h
  | succ fuel ih =>
    obtain ⟨f, rfl⟩ : ∃ f, fuel' = f + 1 := ⟨fuel' - 1, by omega⟩
    by_cases hv : v ∈ s.seen
    · rw [wire_seen d fuel v s hv] at h
      rw [wire_seen d f v s hv, h]
    · obtain ⟨x, hx⟩ : ∃ x, vertexAt d v = some x := by
        cases hx : vertexAt d v with
        | none => rw [wire, if_neg hv, hx] at h; cases h
        | some x => exact ⟨x, rfl⟩
      rw [wire_succ d fuel v s x hx hv] at h
      rw [wire_succ d f v s x hx hv]
      have hloop : ∀ (l : List Nat) (t t' : Wires), loop d fuel v t l = some t' → loop d f v t l = some t' := by
        intro l
        induction l with
        | nil => intro t t' ht; exact ht
        | cons c l ihl =>
          intro t t' ht
          rw [loop_cons] at ht ⊢
          cases hc : wire d fuel c t with
          | none => rw [hc] at ht; cases ht
          | some u =>
            rw [hc, Option.bind_some] at ht
            rw [ih f c t u (by omega) hc, Option.bind_some]
            exact ihl _ _ ht
      exact hloop _ _ _ h

/-- The vertices up to `m` are built as if the later ones did not exist. -/
theorem wires_take (d : Dsl) (hd : Forward d) (m : Nat) (w w' : Wires) (hw : wires d = some w) (hw' : wires (d.take m) = some w') :
    w' = restrict m w := by
  have key : ∀ (l : List Nat) (s t : Wires), l.foldlM (fun s v => wire d (d.length + 1) v s) s = some t →
      (l.filter (· ≤ m)).foldlM (fun s v => wire (d.take m) (d.length + 1) v s) (restrict m s) = some (restrict m t) := by
    intro l
    induction l with
    | nil => intro s t h; cases h; rfl
    | cons v l ih =>
      intro s t h
      rw [List.foldlM_cons] at h
      cases hv : wire d (d.length + 1) v s with
      | none => rw [hv] at h; cases h
      | some u =>
        rw [hv] at h
        have g := ih u t h
        obtain ⟨g1, g2⟩ := wire_take d hd m _ v s u hv
        rw [List.filter_cons]
        by_cases hm : v ≤ m
        · rw [if_pos (by simpa using hm), List.foldlM_cons, g2 hm]
          exact g
        · rw [if_neg (by simpa using hm), ← g1 (by omega)]
          exact g
  have h1 := key (heads d) _ _ hw
  have h2 : (heads (d.take m)).foldlM (fun s v => wire (d.take m) (d.length + 1) v s) ⟨[], [], []⟩ = some w' := by
    unfold wires at hw'
    have : ∀ (l : List Nat) (s t : Wires), l.foldlM (fun s v => wire (d.take m) ((d.take m).length + 1) v s) s = some t →
        l.foldlM (fun s v => wire (d.take m) (d.length + 1) v s) s = some t := by
      intro l
      induction l with
      | nil => intro s t h; exact h
      | cons v l ih =>
        intro s t h
        rw [List.foldlM_cons] at h ⊢
        cases hv : wire (d.take m) ((d.take m).length + 1) v s with
        | none => rw [hv] at h; cases h
        | some u =>
          rw [hv] at h
          rw [wire_fuel _ _ (d.length + 1) v s u (by rw [List.length_take]; omega) hv]
          exact ih u t h
    exact this _ _ _ hw'
  rw [heads_take] at h2
  have h3 : restrict m ⟨[], [], []⟩ = ⟨[], [], []⟩ := rfl
  rw [h3, h2] at h1
  exact Option.some.inj h1

/-! ### The order of the connections into a vertex -/

/-- There is a path from `a` to `b`. -/
def Leads (d : Dsl) (a b : Nat) : Prop := Relation.TransGen (fun a b => a ∈ parentsAt d b) a b

/-- If no vertex that is connected to `c` leads to another one, building some vertex adds the connections into `c` in the order in which their vertices are
built. -/
theorem wire_sources (d : Dsl) (c : Nat) (hn : (parentsAt d c).Nodup) (hinc : ∀ p ∈ parentsAt d c, ∀ q ∈ parentsAt d c, ¬ Leads d p q) (fuel v : Nat)
    (s s' : Wires) (h : wire d fuel v s = some s') :
    ∃ l cs, s'.seen = s.seen ++ l ∧ s'.conns = s.conns ++ cs ∧ (∀ u ∈ l, u = v ∨ Leads d v u) ∧
      (cs.filter fun e => e.2 == c).map Prod.fst = l.filter fun u => decide (u ∈ parentsAt d c) := by
  induction fuel generalizing v s s' with
  | zero => cases h
  | succ fuel ih =>
    by_cases hv : v ∈ s.seen
    · rw [wire_seen d fuel v s hv] at h
      cases h
      exact ⟨[], [], by simp, by simp, by simp, rfl⟩
    · obtain ⟨x, hx⟩ : ∃ x, vertexAt d v = some x := by
        cases hx : vertexAt d v with
        | none => rw [wire, if_neg hv, hx] at h; cases h
        | some x => exact ⟨x, rfl⟩
      rw [wire_succ d fuel v s x hx hv] at h
      have hloop : ∀ (cl : List Nat) (t t' : Wires), (∀ b ∈ cl, v ∈ parentsAt d b) → loop d fuel v t cl = some t' →
          ∃ l cs, t'.seen = t.seen ++ l ∧ t'.conns = t.conns ++ cs ∧ (∀ u ∈ l, Leads d v u) ∧
            (v ∉ parentsAt d c → (cs.filter fun e => e.2 == c).map Prod.fst = l.filter fun u => decide (u ∈ parentsAt d c)) ∧
            (v ∈ parentsAt d c → (cs.filter fun e => e.2 == c).map Prod.fst = List.replicate (cl.count c) v) := by
        intro cl
        induction cl with
        | nil =>
          intro t t' _ ht
          have : t = t' := Option.some.inj ht
          subst this
          exact ⟨[], [], by simp, by simp, by simp, fun _ => rfl, fun _ => rfl⟩
        | cons b cl ihl =>
          intro t t' hcl ht
          have hb := hcl b List.mem_cons_self
          rw [loop_cons] at ht
          cases hc : wire d fuel b t with
          | none => rw [hc] at ht; cases ht
          | some u =>
            rw [hc, Option.bind_some] at ht
            obtain ⟨l2, cs2, e1, e2, e3, e4, e5⟩ := ihl _ t' (fun c hc => hcl c (List.mem_cons_of_mem _ hc)) ht
            obtain ⟨l1, cs1, f1, f2, f3, f4⟩ := ih b t u hc
            have hl1 : ∀ u ∈ l1, Leads d v u := by
              intro u hu
              rcases f3 u hu with rfl | hu
              · exact Relation.TransGen.single hb
              · exact Relation.TransGen.head hb hu
            refine ⟨l1 ++ l2, cs1 ++ [(v, b)] ++ cs2, ?_, ?_, ?_, ?_, ?_⟩
            · rw [e1]; simp only; rw [f1, List.append_assoc]
            · rw [e2]; simp only; rw [f2]; simp
            · intro u hu
              rcases List.mem_append.1 hu with hu | hu
              · exact hl1 u hu
              · exact e3 u hu
            · intro hvc
              have hbc : b ≠ c := by rintro rfl; exact hvc hb
              rw [List.filter_append, List.filter_append, List.map_append, List.map_append, f4, e4 hvc, List.filter_append]
              simp [hbc]
            · intro hvc
              have h1 : l1.filter (fun u => decide (u ∈ parentsAt d c)) = [] := by
                rw [List.filter_eq_nil_iff]
                intro u hu
                simp only [decide_eq_true_eq]
                intro huc
                exact hinc v hvc u huc (hl1 u hu)
              rw [List.filter_append, List.filter_append, List.map_append, List.map_append, f4, h1, e5 hvc, List.count_cons]
              by_cases hbc : b = c
              · subst hbc
                simp [List.replicate_succ]
              · simp [hbc]
      obtain ⟨l, cs, e1, e2, e3, e4, e5⟩ := hloop (children d v) _ s' (fun b hb => (mem_children d v b).1 hb) h
      refine ⟨v :: l, cs, by rw [e1]; simp, by rw [e2], ?_, ?_⟩
      · intro u hu
        rcases List.mem_cons.1 hu with rfl | hu
        · exact Or.inl rfl
        · exact Or.inr (e3 u hu)
      · by_cases hvc : v ∈ parentsAt d c
        · rw [e5 hvc, count_children, List.count_eq_one_of_mem hn hvc, List.filter_cons, if_pos (by simpa using hvc)]
          have h1 : l.filter (fun u => decide (u ∈ parentsAt d c)) = [] := by
            rw [List.filter_eq_nil_iff]
            intro u hu
            simp only [decide_eq_true_eq]
            intro huc
            exact hinc v hvc u huc (e3 u hu)
          rw [h1]; rfl
        · rw [e4 hvc, List.filter_cons, if_neg (by simpa using hvc)]

theorem wires_sources (d : Dsl) (c : Nat) (hn : (parentsAt d c).Nodup) (hinc : ∀ p ∈ parentsAt d c, ∀ q ∈ parentsAt d c, ¬ Leads d p q) (w : Wires)
    (hw : wires d = some w) :
    (Graph.inputs w.conns c).map (Graph.src w.conns) = w.seen.filter fun u => decide (u ∈ parentsAt d c) := by
  rw [inputs_src]
  have key : ∀ (l : List Nat) (s t : Wires), l.foldlM (fun s v => wire d (d.length + 1) v s) s = some t →
      (s.conns.filter fun e => e.2 == c).map Prod.fst = s.seen.filter (fun u => decide (u ∈ parentsAt d c)) →
      (t.conns.filter fun e => e.2 == c).map Prod.fst = t.seen.filter fun u => decide (u ∈ parentsAt d c) := by
    intro l
    induction l with
    | nil => intro s t h hs; cases h; exact hs
    | cons v l ih =>
      intro s t h hs
      rw [List.foldlM_cons] at h
      cases hv : wire d (d.length + 1) v s with
      | none => rw [hv] at h; cases h
      | some u =>
        rw [hv] at h
        obtain ⟨l1, cs1, f1, f2, f3, f4⟩ := wire_sources d c hn hinc _ v s u hv
        apply ih u t h
        rw [f1, f2, List.filter_append, List.map_append, hs, f4, List.filter_append]
  exact key _ _ _ hw rfl

/-! ### Branches that are joined -/

theorem parentsAt_take (d : Dsl) (m v : Nat) (h : v ≤ m) : parentsAt (d.take m) v = parentsAt d v := by
  unfold parentsAt
  rw [vertexAt_take d m v h]

theorem allSound_take (d : Dsl) (m : Nat) (h : AllSound d) : AllSound (d.take m) := by
  intro v x ps hv
  have hr := vertexAt_range _ _ _ hv
  rw [List.length_take] at hr
  rw [vertexAt_take d m v (by omega)] at hv
  obtain ⟨h1, h2⟩ := h v x ps hv
  refine ⟨h1, ?_⟩
  rcases h2 with h2 | ⟨a, b, p, y, i, c, e, f, g⟩ | ⟨a, b, c, e, f, g, i, j, k⟩
  · exact Or.inl h2
  · exact Or.inr (Or.inl ⟨a, b, p, y, i, c, e, by rw [vertexAt_take d m p (by omega)]; exact f, g⟩)
  · refine Or.inr (Or.inr ⟨a, b, c, e, f, g, i, ?_, k⟩)
    rw [← j]
    apply outShapes_congr
    intro p hp
    rw [vertexAt_take d m p (by have := i p hp; omega)]

theorem rooted_take (d : Dsl) (m : Nat) (h : Rooted d) : Rooted (d.take m) := by
  intro v x hv he
  have hr := vertexAt_range _ _ _ hv
  rw [List.length_take] at hr
  rw [vertexAt_take d m v (by omega)] at hv
  exact h v x hv he

/-- In a forest, what leads to a vertex is in its lineage. -/
theorem leads_lineage (e : Dsl) (hf : Forward e) (hfo : Forest e) (a b : Nat) (h : Leads e a b) : a ∈ lineage e b := by
  induction h with
  | single h =>
    rename_i b
    have := hf b a h
    rw [lineage_step e hf b (by omega), hfo.addedTo b a h]
    exact List.mem_cons_of_mem _ (lineage_self e hf a)
  | tail _ h ih =>
    rename_i b c _
    have := hf c b h
    rw [lineage_step e hf c (by omega), hfo.addedTo c b h]
    exact List.mem_cons_of_mem _ ih

/-- Paths to a vertex up to `m` do not leave these vertices. -/
theorem leads_take (d : Dsl) (hd : Forward d) (m a b : Nat) (hb : b ≤ m) (h : Leads d a b) : Leads (d.take m) a b := by
  induction h with
  | single h => exact Relation.TransGen.single (by rw [parentsAt_take d m _ hb]; exact h)
  | tail _ h ih =>
    have := hd _ _ h
    exact Relation.TransGen.tail (ih (by omega)) (by rw [parentsAt_take d m _ hb]; exact h)

theorem leads_lt (d : Dsl) (hd : Forward d) (a b : Nat) (h : Leads d a b) : a < b := by
  induction h with
  | single h => exact (hd _ _ h).2
  | tail _ h ih => have := (hd _ _ h).2; omega

/-- The vertices before `c` are a depth-first forest, and `c` was made from vertices on different branches, in the order of their creation. -/
def Branches (d : Dsl) (c : Nat) : Prop :=
  Forest (d.take (c - 1)) ∧ DepthFirst (d.take (c - 1)) ∧ (parentsAt d c).Pairwise (· < ·) ∧
    ∀ p ∈ parentsAt d c, ∀ q ∈ parentsAt d c, p ≠ q → p ∉ lineage (d.take (c - 1)) q

instance (d : Dsl) (c : Nat) : Decidable (Branches d c) := by unfold Branches; infer_instance

/-- A list in ascending order is what is left of the numbers when all others are taken out. -/
theorem filter_sorted (l : List Nat) (n : Nat) (h : l.Pairwise (· < ·)) (hl : ∀ a ∈ l, 1 ≤ a ∧ a ≤ n) :
    (List.range' 1 n).filter (fun u => decide (u ∈ l)) = l := by
  have h1 : ((List.range' 1 n).filter (fun u => decide (u ∈ l))).Pairwise (· < ·) := List.Pairwise.filter _ (List.pairwise_lt_range' (step := 1) (by omega))
  apply List.Perm.eq_of_pairwise (le := (· < ·)) _ h1 h
  · rw [List.perm_ext_iff_of_nodup (h1.imp fun h => by omega) (h.imp fun h => by omega)]
    intro a
    rw [List.mem_filter, List.mem_range'_1]
    simp only [decide_eq_true_eq]
    constructor
    · exact fun h => h.2
    · intro ha
      have := hl a ha
      exact ⟨by omega, ha⟩
  · intro a b _ _ h h'; omega

theorem branches_order (d : Dsl) (hs : AllSound d) (hr : Rooted d) (c : Nat) (h : Branches d c) (w : Wires) (hw : wires d = some w) :
    (Graph.inputs w.conns c).map (Graph.src w.conns) = parentsAt d c := by
  obtain ⟨hfo, hdf, hsort, hinc⟩ := h
  have hd := hs.forward
  have hlt : ∀ p ∈ parentsAt d c, 1 ≤ p ∧ p < c := fun p hp => hd c p hp
  rw [wires_sources d c (hsort.imp fun h => by omega) ?_ w hw]
  · have hs' := allSound_take d (c - 1) hs
    have hr' := rooted_take d (c - 1) hr
    obtain ⟨w', hw', _, _, _, _⟩ := wires_ok _ hs'.forward hr'
    have h1 := forest_order _ hs' hr' hdf hfo w' hw'
    have h2 := wires_take d hd (c - 1) w w' hw hw'
    rw [h2] at h1
    have h3 : w.seen.filter (· ≤ c - 1) = List.range' 1 (d.take (c - 1)).length := h1
    by_cases hne : parentsAt d c = []
    · rw [hne]; simp
    · obtain ⟨p, _, hp⟩ := List.exists_cons_of_ne_nil hne
      have hcr := parentsAt_range d c p (by rw [hp]; simp)
      rw [List.length_take, Nat.min_eq_left (by omega)] at h3
      have h4 : w.seen.filter (fun u => decide (u ∈ parentsAt d c)) = (w.seen.filter (· ≤ c - 1)).filter fun u => decide (u ∈ parentsAt d c) := by
        rw [List.filter_filter]
        apply List.filter_congr
        intro u _
        by_cases hu : u ∈ parentsAt d c
        · have := hlt u hu
          simp [hu]; omega
        · simp [hu]
      rw [h4, h3]
      apply filter_sorted _ _ hsort
      intro a ha
      have := hlt a ha
      omega
  · intro p hp q hq hl
    have h1 := leads_lt d hd p q hl
    have hs' := allSound_take d (c - 1) hs
    have h2 := leads_take d hd (c - 1) p q (by have := hlt q hq; omega) hl
    exact hinc p hp q hq (by omega) (leads_lineage _ hs'.forward hfo p q h2)

end Verif.Wiring
