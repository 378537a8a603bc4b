import Verif.Model.Wiring
import Verif.Lemmas.DslLoad
import Verif.Lemmas.Graph
import Mathlib.Data.List.Perm.Basic
import Mathlib.Data.List.Perm.Subperm
import Mathlib.Data.List.Flatten

/-! The connections of a built network are the edges of its description. -/

namespace Verif.Wiring
open Verif Verif.Dsl Verif.Enums

/-- Vertex `v` is an output of the network. -/
def isOut (d : Dsl) (v : Nat) : Bool := ((vertexAt d v).map fun x => givesOutput x.1).getD false

/-- The edges that start at `u`. -/
def edgesOf (d : Dsl) (u : Nat) : Graph.Connections := (children d u).map fun c => (u, c)

/-- The loop over the edges of `v`. -/
def loop (d : Dsl) (fuel v : Nat) (s : Wires) (l : List Nat) : Option Wires :=
  l.foldlM (fun s c => (wire d fuel c s).map fun s => { s with conns := s.conns ++ [(v, c)] }) s

theorem wire_succ (d : Dsl) (fuel v : Nat) (s : Wires) (x : Vertex × List Nat) (hx : vertexAt d v = some x) (hv : v ∉ s.seen) :
    wire d (fuel + 1) v s = loop d fuel v ⟨s.seen ++ [v], s.conns, if givesOutput x.1 then s.outs ++ [v] else s.outs⟩ (children d v) := by
  rw [wire, if_neg hv, hx]
  rfl

theorem wire_seen (d : Dsl) (fuel v : Nat) (s : Wires) (hv : v ∈ s.seen) : wire d (fuel + 1) v s = some s := by
  rw [wire, if_pos hv]

/-- What a part of the recursion adds: the vertices `l`, not built before, with all their edges (and some of the edges `extra` of a vertex in work). -/
structure Adds (d : Dsl) (lo : Nat) (s s' : Wires) (l : List Nat) (extra : Graph.Connections) : Prop where
  seen : s'.seen = s.seen ++ l
  nodup : l.Nodup
  fresh : ∀ u ∈ l, u ∉ s.seen ∧ lo ≤ u ∧ u ≤ d.length
  outs : s'.outs = s.outs ++ l.filter (isOut d)
  conns : ∃ cs, s'.conns = s.conns ++ cs ∧ cs.Perm (l.flatMap (edgesOf d) ++ extra)
  closed : ∀ u ∈ l, ∀ c ∈ children d u, c ∈ s'.seen

theorem Adds.refl (d : Dsl) (lo : Nat) (s : Wires) : Adds d lo s s [] [] :=
  ⟨by simp, List.nodup_nil, by simp, by simp, ⟨[], by simp, by simp⟩, by simp⟩

theorem Adds.weaken {d : Dsl} {lo lo' : Nat} {s s' : Wires} {l : List Nat} {ex : Graph.Connections} (h : Adds d lo s s' l ex) (hle : lo' ≤ lo) :
    Adds d lo' s s' l ex :=
  ⟨h.seen, h.nodup, fun u hu => ⟨(h.fresh u hu).1, by have := (h.fresh u hu).2.1; omega, (h.fresh u hu).2.2⟩, h.outs, h.conns, h.closed⟩

theorem Adds.trans {d : Dsl} {lo : Nat} {a b c : Wires} {l l' : List Nat} {ex ex' : Graph.Connections} (h : Adds d lo a b l ex)
    (h' : Adds d lo b c l' ex') : Adds d lo a c (l ++ l') (ex ++ ex') := by
  refine ⟨by rw [h'.seen, h.seen, List.append_assoc], ?_, ?_, ?_, ?_, ?_⟩
  · rw [List.nodup_append]
    refine ⟨h.nodup, h'.nodup, ?_⟩
    intro x hx y hy hxy
    subst hxy
    exact (h'.fresh x hy).1 (by rw [h.seen]; exact List.mem_append_right _ hx)
  · intro u hu
    rcases List.mem_append.1 hu with hu | hu
    · exact h.fresh u hu
    · exact ⟨fun hm => (h'.fresh u hu).1 (by rw [h.seen]; exact List.mem_append_left _ hm), (h'.fresh u hu).2⟩
  · rw [h'.outs, h.outs, List.filter_append, List.append_assoc]
  · obtain ⟨cs, e, p⟩ := h.conns
    obtain ⟨cs', e', p'⟩ := h'.conns
    refine ⟨cs ++ cs', by rw [e', e, List.append_assoc], ?_⟩
    rw [List.flatMap_append]
    refine (p.append p').trans ?_
    rw [List.append_assoc, List.append_assoc]
    apply List.Perm.append_left
    rw [← List.append_assoc, ← List.append_assoc]
    exact List.perm_append_comm.append_right _
  · intro u hu c hc
    rcases List.mem_append.1 hu with hu | hu
    · rw [h'.seen]; exact List.mem_append_left _ (h.closed u hu c hc)
    · exact h'.closed u hu c hc

theorem loop_cons (d : Dsl) (fuel v : Nat) (s : Wires) (c : Nat) (l : List Nat) :
    loop d fuel v s (c :: l) = (wire d fuel c s).bind fun s => loop d fuel v { s with conns := s.conns ++ [(v, c)] } l := by
  unfold loop
  rw [List.foldlM_cons]
  cases wire d fuel c s <;> rfl

theorem loop_append (d : Dsl) (fuel v : Nat) (s : Wires) (l l' : List Nat) :
    loop d fuel v s (l ++ l') = (loop d fuel v s l).bind fun s => loop d fuel v s l' := by
  unfold loop
  rw [List.foldlM_append]
  rfl

theorem loop_ok (d : Dsl) (fuel v lo : Nat) (l : List Nat)
    (hw : ∀ c ∈ l, ∀ s, ∃ s' l', wire d fuel c s = some s' ∧ Adds d lo s s' l' [] ∧ c ∈ s'.seen) (s : Wires) :
    ∃ s' l', loop d fuel v s l = some s' ∧ Adds d lo s s' l' (l.map fun c => (v, c)) ∧ ∀ c ∈ l, c ∈ s'.seen := by
  induction l generalizing s with
  | nil => exact ⟨s, [], rfl, Adds.refl d lo s, by simp⟩
  | cons c l ih =>
    obtain ⟨s1, l1, e1, a1, c1⟩ := hw c List.mem_cons_self s
    obtain ⟨s2, l2, e2, a2, c2⟩ := ih (fun c hc => hw c (List.mem_cons_of_mem _ hc)) { s1 with conns := s1.conns ++ [(v, c)] }
    have a1' : Adds d lo s { s1 with conns := s1.conns ++ [(v, c)] } l1 [(v, c)] := by
      obtain ⟨cs, h1, h2⟩ := a1.conns
      refine ⟨a1.seen, a1.nodup, a1.fresh, a1.outs, ⟨cs ++ [(v, c)], ?_, ?_⟩, a1.closed⟩
      · simp only; rw [h1, List.append_assoc]
      · rw [List.append_nil] at h2
        exact h2.append_right _
    refine ⟨s2, l1 ++ l2, by rw [loop_cons, e1]; exact e2, a1'.trans a2, ?_⟩
    intro u hu
    rcases List.mem_cons.1 hu with rfl | hu
    · rw [a2.seen]; exact List.mem_append_left _ c1
    · exact c2 u hu

theorem wire_ok (d : Dsl) (hd : Forward d) (fuel v : Nat) (h1 : 1 ≤ v) (h2 : v ≤ d.length) (hf : d.length < fuel + v) (s : Wires) :
    ∃ s' l, wire d fuel v s = some s' ∧ Adds d v s s' l [] ∧ v ∈ s'.seen := by
  induction fuel generalizing v s with
  | zero => omega
  | succ fuel ih =>
    by_cases hv : v ∈ s.seen
    · exact ⟨s, [], wire_seen d fuel v s hv, Adds.refl d v s, hv⟩
    · obtain ⟨x, hx⟩ := vertexAt_some d v h1 h2
      rw [wire_succ d fuel v s x hx hv]
      obtain ⟨s', l, e, a, c⟩ := loop_ok d fuel v (v + 1) (children d v) (by
        intro c hc t
        have hp := (mem_children d v c).1 hc
        have hlt := hd c v hp
        have hr := parentsAt_range d c v hp
        obtain ⟨s', l', e, a, m⟩ := ih c (by omega) hr.2 (by omega) t
        exact ⟨s', l', e, a.weaken (by omega), m⟩) ⟨s.seen ++ [v], s.conns, if givesOutput x.1 then s.outs ++ [v] else s.outs⟩
      have hout : isOut d v = givesOutput x.1 := by unfold isOut; rw [hx]; rfl
      refine ⟨s', v :: l, e, ⟨?_, ?_, ?_, ?_, ?_, ?_⟩, ?_⟩
      · rw [a.seen]; simp
      · rw [List.nodup_cons]
        exact ⟨fun hm => by have := (a.fresh v hm).2.1; omega, a.nodup⟩
      · intro u hu
        rcases List.mem_cons.1 hu with rfl | hu
        · exact ⟨hv, Nat.le_refl _, h2⟩
        · have := a.fresh u hu
          exact ⟨fun hm => this.1 (List.mem_append_left _ hm), by omega, this.2.2⟩
      · rw [a.outs, List.filter_cons, hout]
        simp only
        split <;> simp
      · obtain ⟨cs, e1, p1⟩ := a.conns
        refine ⟨cs, e1, p1.trans ?_⟩
        rw [List.append_nil, List.flatMap_cons]
        exact List.perm_append_comm
      · intro u hu c' hc'
        rcases List.mem_cons.1 hu with rfl | hu
        · exact c c' hc'
        · exact a.closed u hu c' hc'
      · rw [a.seen]; simp

theorem heads_loop (d : Dsl) (hd : Forward d) (l : List Nat) (hl : ∀ h ∈ l, 1 ≤ h ∧ h ≤ d.length) (s : Wires) :
    ∃ s' l', l.foldlM (fun s v => wire d (d.length + 1) v s) s = some s' ∧ Adds d 1 s s' l' [] ∧ ∀ h ∈ l, h ∈ s'.seen := by
  induction l generalizing s with
  | nil => exact ⟨s, [], rfl, Adds.refl d 1 s, by simp⟩
  | cons h l ih =>
    obtain ⟨r1, r2⟩ := hl h List.mem_cons_self
    obtain ⟨s1, l1, e1, a1, c1⟩ := wire_ok d hd (d.length + 1) h r1 r2 (by omega) s
    obtain ⟨s2, l2, e2, a2, c2⟩ := ih (fun h hh => hl h (List.mem_cons_of_mem _ hh)) s1
    refine ⟨s2, l1 ++ l2, by rw [List.foldlM_cons, e1]; exact e2, (a1.weaken r1).trans a2, ?_⟩
    intro u hu
    rcases List.mem_cons.1 hu with rfl | hu
    · rw [a2.seen]; exact List.mem_append_left _ c1
    · exact c2 u hu

/-- Every vertex is built once, every edge becomes one connection, and the outputs are registered in the order of building. -/
theorem wires_ok (d : Dsl) (hd : Forward d) (hr : Rooted d) :
    ∃ w, wires d = some w ∧ w.seen.Nodup ∧ (∀ v, v ∈ w.seen ↔ 1 ≤ v ∧ v ≤ d.length) ∧ w.outs = w.seen.filter (isOut d) ∧
      w.conns.Perm (w.seen.flatMap (edgesOf d)) := by
  obtain ⟨w, l, e, a, c⟩ := heads_loop d hd (heads d) (by
    intro h hh
    obtain ⟨x, hx, _⟩ := (mem_heads d h).1 hh
    exact vertexAt_range d h x hx) ⟨[], [], []⟩
  have hseen : w.seen = l := by rw [a.seen]; simp
  refine ⟨w, e, by rw [hseen]; exact a.nodup, ?_, by rw [a.outs, hseen]; simp, ?_⟩
  · have hall : ∀ v, 1 ≤ v → v ≤ d.length → v ∈ w.seen := by
      intro v
      induction v using Nat.strong_induction_on with
      | _ v ih =>
        intro h1 h2
        obtain ⟨x, hx⟩ := vertexAt_some d v h1 h2
        by_cases hps : x.2 = []
        · exact c v ((mem_heads d v).2 ⟨x, hx, hr v x hx hps⟩)
        · obtain ⟨p, ps, hpl⟩ := List.exists_cons_of_ne_nil hps
          have hp : p ∈ parentsAt d v := by unfold parentsAt; rw [hx]; simp [hpl]
          have hlt := hd v p hp
          have hs := ih p hlt.2 hlt.1 (by omega)
          rw [hseen] at hs
          exact a.closed p hs v ((mem_children d p v).2 hp)
    intro v
    refine ⟨fun hv => ?_, fun hv => hall v hv.1 hv.2⟩
    rw [hseen] at hv
    exact (a.fresh v hv).2
  · obtain ⟨cs, e1, p1⟩ := a.conns
    rw [e1, hseen]
    simpa using p1

/-- The layers that are connected to `v`, in the order of the connections. -/
theorem inputs_src (g : Graph.Connections) (v : Nat) : (Graph.inputs g v).map (Graph.src g) = (g.filter fun e => e.2 == v).map Prod.fst := by
  unfold Graph.inputs
  have key : ∀ n, n ≤ g.length →
      ((List.range n).filter fun e => Graph.dst g e == v).map (Graph.src g) = ((g.take n).filter fun e => e.2 == v).map Prod.fst := by
    intro n
    induction n with
    | zero => intro _; rfl
    | succ n ih =>
      intro hn
      have hg : g[n]? = some g[n] := List.getElem?_eq_getElem hn
      rw [List.range_succ, List.filter_append, List.map_append, ih (by omega), List.take_add_one, List.filter_append, List.map_append, hg]
      congr 1
      have h1 : Graph.dst g n = (g[n]).2 := by unfold Graph.dst; rw [hg]; rfl
      have h2 : Graph.src g n = (g[n]).1 := by unfold Graph.src; rw [hg]; rfl
      simp only [List.filter_cons, List.filter_nil, Option.toList_some, h1]
      split <;> simp [h2]
  rw [key _ (Nat.le_refl _), List.take_length]

theorem count_children (d : Dsl) (u v : Nat) : (children d u).count v = (parentsAt d v).count u := by
  unfold children parentsAt vertexAt
  have key : ∀ n, n ≤ d.length → ((List.range n).flatMap fun i => List.replicate ((d[i]?.map fun x => x.2.count u).getD 0) (i + 1)).count v =
      if 1 ≤ v ∧ v ≤ n then (((d[v - 1]?).map (·.2)).getD []).count u else 0 := by
    intro n
    induction n with
    | zero =>
      intro _
      rw [if_neg (by omega)]; rfl
    | succ n ih =>
      intro hn
      rw [List.range_succ, List.flatMap_append, List.count_append, ih (by omega)]
      simp only [List.flatMap_cons, List.flatMap_nil, List.append_nil, List.count_replicate]
      rw [List.getElem?_eq_getElem (show n < d.length by omega)]
      by_cases hv : v = n + 1
      · subst hv
        rw [if_neg (by omega : ¬ (1 ≤ n + 1 ∧ n + 1 ≤ n)), if_pos (by omega : 1 ≤ n + 1 ∧ n + 1 ≤ n + 1)]
        simp [List.getElem?_eq_getElem (show n < d.length by omega)]
      · have : ¬ (n + 1 == v) = true := by simp; omega
        rw [if_neg this]
        by_cases h : 1 ≤ v ∧ v ≤ n
        · rw [if_pos h, if_pos (by omega)]; rfl
        · rw [if_neg h, if_neg (by omega)]
  rw [key _ (Nat.le_refl _)]
  by_cases h : 1 ≤ v ∧ v ≤ d.length
  · rw [if_pos h, if_neg (by omega)]
  · rw [if_neg h]
    split
    · simp
    · rw [List.getElem?_eq_none (by omega)]
      simp

theorem count_edges (d : Dsl) (u v : Nat) (l : List Nat) (hn : l.Nodup) :
    (l.flatMap (edgesOf d)).count (u, v) = if u ∈ l then (parentsAt d v).count u else 0 := by
  induction l with
  | nil => simp
  | cons w l ih =>
    rw [List.nodup_cons] at hn
    rw [List.flatMap_cons, List.count_append, ih hn.2]
    have h1 : (edgesOf d w).count (u, v) = if u = w then (parentsAt d v).count u else 0 := by
      unfold edgesOf
      by_cases h : u = w
      · subst h
        rw [if_pos rfl, ← count_children]
        exact List.count_map_of_injective _ (fun c => (u, c)) (fun a b hab => by simpa using hab) v
      · rw [if_neg h]
        apply List.count_eq_zero.2
        intro hm
        rw [List.mem_map] at hm
        obtain ⟨c, _, hc⟩ := hm
        simp only [Prod.mk.injEq] at hc
        exact h hc.1.symm
    rw [h1]
    by_cases h : u = w
    · subst h
      rw [if_pos rfl, if_neg hn.1, if_pos (by simp)]
      omega
    · rw [if_neg h]
      by_cases h' : u ∈ l
      · rw [if_pos h', if_pos (by simp [h'])]; omega
      · rw [if_neg h', if_neg (by simp [h, h'])]

/-- The layers connected to `v` are its parents, each as often as it was listed. -/
theorem sources_perm (d : Dsl) (hd : Forward d) (w : Wires) (hn : w.seen.Nodup) (hs : ∀ v, v ∈ w.seen ↔ 1 ≤ v ∧ v ≤ d.length)
    (hp : w.conns.Perm (w.seen.flatMap (edgesOf d))) (v : Nat) : ((Graph.inputs w.conns v).map (Graph.src w.conns)).Perm (parentsAt d v) := by
  rw [inputs_src, List.perm_iff_count]
  intro u
  have h1 : ((w.conns.filter fun e => e.2 == v).map Prod.fst).count u = w.conns.count (u, v) := by
    generalize w.conns = g
    induction g with
    | nil => rfl
    | cons e g ih =>
      obtain ⟨a, b⟩ := e
      rw [List.filter_cons]
      by_cases hb : b = v
      · subst hb
        simp only [beq_self_eq_true, if_true, List.map_cons, List.count_cons, ih]
        by_cases ha : a = u <;> simp [ha]
      · rw [if_neg (by simpa using hb), ih, List.count_cons]
        simp [hb]
  rw [h1, hp.count_eq, count_edges d u v _ hn]
  split
  · rfl
  · rename_i hu
    symm
    apply List.count_eq_zero.2
    intro hm
    have := hd v u hm
    have h2 := parentsAt_range d v u hm
    exact hu ((hs u).2 ⟨this.1, by omega⟩)

end Verif.Wiring
