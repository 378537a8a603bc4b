import Verif.Model.GraphFailure
import Verif.Props.C55_C58_Graph

/-!
C123: a prediction that fails leaves no trace: later predictions are those of a network that was not used before.
-/
namespace Verif.Graph
variable {T : Type}

/-! ### Specification -/

/-- `val` is what every node of the network computes for the given inputs; no layer throws. -/
def Computes (g : Connections) (layer : Nat → List T → Option T) (heads : List Nat) (given val : Nat → T) : Prop :=
  ∀ v, IsNode g heads v → layer v (args g heads given val v) = some (val v)

/-- A new network. -/
def fresh : State T := ⟨fun _ => none, fun _ => none, []⟩

/-- `w` can be reached from `v`. -/
inductive Below (g : Connections) (v : Nat) : Nat → Prop
  | refl : Below g v v
  | step (e : Nat) (he : e < g.length) (h : Below g v (src g e)) : Below g v (dst g e)

/-! ### Lemmas: a pass without exceptions is a pass of `Verif.Model.Graph` -/

theorem send_log (g : Connections) (rec : Nat → List T → State T → Option (State T)) (hrec : ∀ v ins s s', rec v ins s = some s' → s.log <+: s'.log)
    (t : T) (s s' : State T) (e : Nat) (h : send g rec t s e = some s') : s.log <+: s'.log := by
  unfold send at h
  simp only at h
  split at h
  · obtain rfl := Option.some.inj h; exact List.prefix_refl _
  · split at h
    · cases h
    · rename_i ins _ _ s1 h1
      obtain rfl := Option.some.inj h
      have := hrec _ _ _ _ h1
      exact this

theorem sendAll_log (g : Connections) (rec : Nat → List T → State T → Option (State T)) (hrec : ∀ v ins s s', rec v ins s = some s' → s.log <+: s'.log)
    (t : T) (l : List Nat) : ∀ s s' : State T, sendAll g rec t s l = some s' → s.log <+: s'.log := by
  induction l with
  | nil => intro s s' h; obtain rfl := Option.some.inj h; exact List.prefix_refl _
  | cons e l ih =>
    intro s s' h
    unfold sendAll at h
    split at h
    · cases h
    · rename_i s1 h1
      exact (send_log g rec hrec t s s1 e h1).trans (ih s1 s' h)

theorem doForward_log (g : Connections) (layer : Nat → List T → T) : ∀ (fuel v : Nat) (ins : List T) (s s' : State T),
    doForward g layer fuel v ins s = some s' → s.log ++ [(v, ins)] <+: s'.log := by
  intro fuel
  induction fuel with
  | zero => intro v ins s s' h; cases h
  | succ fuel ih =>
    intro v ins s s' h
    unfold doForward at h
    simp only at h
    split at h
    · obtain rfl := Option.some.inj h; exact List.prefix_refl _
    · exact sendAll_log g _ (fun v ins s s' h => (List.prefix_append _ _).trans (ih v ins s s' h)) _ _ _ _ h

theorem send_same (g : Connections) (rec : Nat → List T → State T → Option (State T)) (recF : Nat → List T → State T → Option (State T × Bool))
    (ok : Nat × List T → Prop)
    (hrec : ∀ v ins s s', rec v ins s = some s' → (∀ p ∈ s'.log, ok p) → recF v ins s = some (s', false))
    (t : T) (s s' : State T) (e : Nat) (h : send g rec t s e = some s') (hok : ∀ p ∈ s'.log, ok p) : sendF g recF t s e = some (s', false) := by
  unfold send at h
  unfold sendF
  simp only at h ⊢
  split at h
  · rename_i hr
    simp only [hr]
    rw [Option.some.inj h]
  · rename_i ins hr
    split at h
    · cases h
    · rename_i s1 h1
      obtain rfl := Option.some.inj h
      simp only [hr]
      rw [hrec _ _ _ _ h1 hok]

theorem sendAll_same (g : Connections) (rec : Nat → List T → State T → Option (State T)) (recF : Nat → List T → State T → Option (State T × Bool))
    (ok : Nat × List T → Prop) (hlog : ∀ v ins s s', rec v ins s = some s' → s.log <+: s'.log)
    (hrec : ∀ v ins s s', rec v ins s = some s' → (∀ p ∈ s'.log, ok p) → recF v ins s = some (s', false))
    (t : T) (l : List Nat) : ∀ s s' : State T, sendAll g rec t s l = some s' → (∀ p ∈ s'.log, ok p) → sendAllF g recF t s l = some (s', false) := by
  induction l with
  | nil => intro s s' h _; obtain rfl := Option.some.inj h; rfl
  | cons e l ih =>
    intro s s' h hok
    unfold sendAll at h
    split at h
    · cases h
    · rename_i s1 h1
      have hp := sendAll_log g rec hlog t l s1 s' h
      unfold sendAllF
      rw [send_same g rec recF ok hrec t s s1 e h1 fun p hp' => hok p (hp.subset hp')]
      exact ih s1 s' h hok

theorem doForward_same (g : Connections) (layer : Nat → List T → T) (layerF : Nat → List T → Option T) :
    ∀ (fuel v : Nat) (ins : List T) (s s' : State T), doForward g layer fuel v ins s = some s' →
      (∀ p ∈ s'.log, layerF p.1 p.2 = some (layer p.1 p.2)) → doForwardF g layerF fuel v ins s = some (s', false) := by
  intro fuel
  induction fuel with
  | zero => intro v ins s s' h; cases h
  | succ fuel ih =>
    intro v ins s s' h hok
    have hl := doForward_log g layer (fuel + 1) v ins s s' h
    have hv : layerF v ins = some (layer v ins) := hok (v, ins) (hl.subset (by simp))
    unfold doForward at h
    unfold doForwardF
    simp only at h ⊢
    rw [hv]
    simp only
    split at h
    · rename_i he
      rw [if_pos he, Option.some.inj h]
    · rename_i he
      rw [if_neg he]
      exact sendAll_same g _ _ (fun p => layerF p.1 p.2 = some (layer p.1 p.2))
        (fun v ins s s' h => (List.prefix_append _ _).trans (doForward_log g layer fuel v ins s s' h)) ih _ _ _ _ h hok

theorem forwardAll_log (g : Connections) (layer : Nat → List T → T) (fuel : Nat) : ∀ (l : List (Nat × T)) (s s' : State T),
    forwardAll g layer fuel l s = some s' → s.log <+: s'.log := by
  intro l
  induction l with
  | nil => intro s s' h; obtain rfl := Option.some.inj h; exact List.prefix_refl _
  | cons p l ih =>
    intro s s' h
    unfold forwardAll at h
    split at h
    · cases h
    · rename_i s1 h1
      exact ((List.prefix_append _ _).trans (doForward_log g layer fuel _ _ s s1 h1)).trans (ih s1 s' h)

theorem forwardAll_same (g : Connections) (layer : Nat → List T → T) (layerF : Nat → List T → Option T) (fuel : Nat) :
    ∀ (l : List (Nat × T)) (s s' : State T), forwardAll g layer fuel l s = some s' →
      (∀ p ∈ s'.log, layerF p.1 p.2 = some (layer p.1 p.2)) → forwardAllF g layerF fuel l s = some (s', false) := by
  intro l
  induction l with
  | nil => intro s s' h _; obtain rfl := Option.some.inj h; rfl
  | cons p l ih =>
    intro s s' h hok
    unfold forwardAll at h
    split at h
    · cases h
    · rename_i s1 h1
      have hp := forwardAll_log g layer fuel l s1 s' h
      unfold forwardAllF
      rw [doForward_same g layer layerF fuel _ _ s s1 h1 fun q hq => hok q (hp.subset hq)]
      exact ih s1 s' h hok

theorem zip_given (heads : List Nat) (given : Nat → T) : heads.zip (heads.map given) = heads.map fun v => (v, given v) := by
  induction heads with
  | nil => rfl
  | cons a l ih => simp [ih]

/-! ### Lemmas: nodes with a single input -/

theorem inputs_single {g : Connections} (hone : ∀ e e', e < g.length → e' < g.length → dst g e = dst g e' → e = e') {e : Nat} (he : e < g.length) :
    inputs g (dst g e) = [e] := by
  have h1 : e ∈ inputs g (dst g e) := (mem_inputs _ _ _).mpr ⟨he, rfl⟩
  have h2 : ∀ e' ∈ inputs g (dst g e), e' = e := fun e' h => by
    obtain ⟨h3, h4⟩ := (mem_inputs _ _ _).mp h
    exact hone e' e h3 he h4
  have h3 : (inputs g (dst g e)).Nodup := List.nodup_range.filter _
  cases hl : inputs g (dst g e) with
  | nil => rw [hl] at h1; simp at h1
  | cons a l =>
    rw [hl] at h2 h3
    have ha := h2 a List.mem_cons_self
    cases l with
    | nil => rw [ha]
    | cons b l =>
      have hb := h2 b (by simp)
      simp [ha, hb] at h3

/-- What `doForward` for `v` does, whatever the state. -/
def Delivers (g : Connections) (val : Nat → T) (starts : List Nat) (s s' : State T) : Prop :=
  ∀ w, outputs g w = [] → ((∃ v ∈ starts, Below g v w) → s'.output w = some (val w)) ∧ ((¬ ∃ v ∈ starts, Below g v w) → s'.output w = s.output w)

theorem Delivers.trans {g : Connections} {val : Nat → T} {a b : List Nat} {s s1 s2 : State T} (h : Delivers g val a s s1) (h' : Delivers g val b s1 s2) :
    Delivers g val (a ++ b) s s2 := by
  intro w hw
  obtain ⟨h1, h2⟩ := h w hw
  obtain ⟨h3, h4⟩ := h' w hw
  constructor
  · rintro ⟨v, hv, hb⟩
    by_cases hc : ∃ v ∈ b, Below g v w
    · exact h3 hc
    · rw [h4 hc]
      rcases List.mem_append.mp hv with hv | hv
      · exact h1 ⟨v, hv, hb⟩
      · exact absurd ⟨v, hv, hb⟩ hc
  · intro hn
    rw [h4 fun ⟨v, hv, hb⟩ => hn ⟨v, List.mem_append_right _ hv, hb⟩, h2 fun ⟨v, hv, hb⟩ => hn ⟨v, List.mem_append_left _ hv, hb⟩]

theorem Below.trans {g : Connections} {u v w : Nat} (h : Below g u v) (h' : Below g v w) : Below g u w := by
  induction h' with
  | refl => exact h
  | step e he _ ih => exact .step e he ih

theorem below_cases {g : Connections} {v w : Nat} (h : Below g v w) : v = w ∨ ∃ e ∈ outputs g v, Below g (dst g e) w := by
  induction h with
  | refl => exact Or.inl rfl
  | step e he _ ih =>
    rcases ih with h | ⟨e', h1, h2⟩
    · exact Or.inr ⟨e, (mem_outputs _ _ _).mpr ⟨he, h.symm⟩, .refl⟩
    · exact Or.inr ⟨e', h1, .step e he h2⟩

theorem sendAllF_any {g : Connections} (hone : ∀ e e', e < g.length → e' < g.length → dst g e = dst g e' → e = e') (val : Nat → T)
    (rec : Nat → List T → State T → Option (State T × Bool)) (v : Nat) (l : List Nat) (hl : ∀ e ∈ l, e ∈ outputs g v)
    (hrec : ∀ e ∈ l, ∀ s, ∃ s', rec (dst g e) [val v] s = some (s', false) ∧ Delivers g val [dst g e] s s') (s : State T) :
    ∃ s', sendAllF g rec (val v) s l = some (s', false) ∧ Delivers g val (l.map (dst g)) s s' := by
  induction l generalizing s with
  | nil => exact ⟨s, rfl, fun w _ => ⟨fun ⟨_, h, _⟩ => by simp at h, fun _ => rfl⟩⟩
  | cons e l ih =>
    obtain ⟨s1, h1, h2⟩ := hrec e List.mem_cons_self { s with pending := fun e' => if e' = e then some (val v) else s.pending e' }
    have hready : ready g { s with pending := fun e' => if e' = e then some (val v) else s.pending e' } (dst g e) = some [val v] := by
      unfold ready
      rw [inputs_single hone ((mem_outputs _ _ _).mp (hl e List.mem_cons_self)).1]
      simp
    obtain ⟨s2, h3, h4⟩ := ih (fun e' h => hl e' (List.mem_cons_of_mem _ h)) (fun e' h => hrec e' (List.mem_cons_of_mem _ h)) (clear g s1 (dst g e))
    refine ⟨s2, ?_, ?_⟩
    · unfold sendAllF sendF
      simp only [hready, h1]
      exact h3
    · have h5 : Delivers g val [dst g e] s (clear g s1 (dst g e)) := h2
      exact h5.trans h4

theorem doForwardF_any {g : Connections} (layer : Nat → List T → Option T) (heads : List Nat) (rank : Nat → Nat) (depth : Nat)
    (wf : WellFormed g heads rank depth) (hone : ∀ e e', e < g.length → e' < g.length → dst g e = dst g e' → e = e')
    (given val : Nat → T) (hval : Computes g layer heads given val) : ∀ (fuel v : Nat), IsNode g heads v → depth < fuel + rank v →
    fuel ≠ 0 → ∀ s, ∃ s', doForwardF g layer fuel v (args g heads given val v) s = some (s', false) ∧ Delivers g val [v] s s' := by
  intro fuel
  induction fuel with
  | zero => intro v _ _ h; exact absurd rfl h
  | succ fuel ih =>
    intro v hv hd _ s
    unfold doForwardF
    simp only [hval v hv]
    split
    · rename_i he
      refine ⟨_, rfl, fun w hw => ⟨?_, ?_⟩⟩
      · rintro ⟨u, hu, hb⟩
        obtain rfl := List.mem_singleton.mp hu
        rcases below_cases hb with rfl | ⟨e, h1, _⟩
        · simp
        · rw [List.isEmpty_iff.mp he] at h1
          simp at h1
      · intro hn
        have : w ≠ v := fun h => hn ⟨v, by simp, h ▸ .refl⟩
        simp [this]
    · obtain ⟨s', h1, h2⟩ := sendAllF_any hone val (doForwardF g layer fuel) v (outputs g v) (fun _ h => h) (fun e he s => by
        obtain ⟨k1, k2⟩ := (mem_outputs _ _ _).mp he
        obtain ⟨k3, k4⟩ := wf.ranked e k1
        have hh : dst g e ∉ heads := fun h => wf.first _ h e k1 rfl
        have ha : args g heads given val (dst g e) = [val v] := by
          unfold args
          rw [if_neg hh, inputs_single hone k1]
          simp [k2]
        rw [← ha]
        rw [k2] at k3
        exact ih (dst g e) (Or.inr ⟨e, k1, rfl⟩) (by omega) (by omega) s) { s with log := s.log ++ [(v, args g heads given val v)] }
      refine ⟨s', h1, fun w hw => ⟨?_, ?_⟩⟩
      · rintro ⟨u, hu, hb⟩
        obtain rfl := List.mem_singleton.mp hu
        rcases below_cases hb with rfl | ⟨e, k1, k2⟩
        · rename_i he
          rw [hw] at he
          simp at he
        · exact (h2 w hw).1 ⟨dst g e, List.mem_map.mpr ⟨e, k1, rfl⟩, k2⟩
      · intro hn
        refine (h2 w hw).2 ?_
        rintro ⟨u, hu, hb⟩
        obtain ⟨e, k1, rfl⟩ := List.mem_map.mp hu
        obtain ⟨k2, k3⟩ := (mem_outputs _ _ _).mp k1
        refine hn ⟨v, by simp, Below.trans (.step e k2 ?_) hb⟩
        rw [k3]; exact .refl

/-! ### C123 -/

/-- C123 where it holds: while all connections are empty, as in a new network and after predictions without exceptions, a prediction for inputs that no
layer rejects gives the values that the layers compute, and the connections are empty again. -/
theorem C123_clean_partial (g : Connections) (layer : Nat → List T → Option T) (heads outs : List Nat) (rank : Nat → Nat) (depth : Nat)
    (wf : WellFormed g heads rank depth) (houts : ∀ o ∈ outs, IsNode g heads o ∧ ∀ e, e < g.length → src g e ≠ o) (fuel : Nat)
    (hfuel : depth < fuel) (given val : Nat → T) (hval : Computes g layer heads given val) (s : State T) (hlog : s.log = [])
    (hclean : ∀ e, e < g.length → s.pending e = none) :
    ∃ s', predictF g layer fuel heads outs (heads.map given) s = some (some (outs.map fun o => some (val o)), s') ∧
      ∀ e, e < g.length → s'.pending e = none := by
  classical
  let total : Nat → List T → T := fun v ins => if IsNode g heads v then (layer v ins).getD (val v) else val v
  have hv : IsValue g total heads given val := by
    intro v
    show val v = if _ then _ else _
    split
    · rename_i h
      rw [hval v h]; rfl
    · rfl
  obtain ⟨s', h1, h2, _, h4, _, h6, h7⟩ := C55 g total heads rank depth wf given val hv fuel hfuel s hlog hclean
  have hF := forwardAll_same g total layer fuel _ _ _ h1 fun p hp => by
    have hn : IsNode g heads p.1 := (h2 p.1).mp (List.mem_map.mpr ⟨p, hp, rfl⟩)
    rw [h4 p hp, hval _ hn]
    show some (val p.1) = some (if _ then _ else _)
    rw [if_pos hn, hval _ hn]; rfl
  refine ⟨{ s' with output := fun w => if w ∈ outs then none else s'.output w }, ?_, h6⟩
  unfold predictF
  rw [if_neg (by simp), zip_given, hF]
  have hmap : outs.map s'.output = outs.map fun o => some (val o) :=
    List.map_congr_left fun o ho => h7 o (houts o ho).1 (houts o ho).2
  simp only [hmap]

/-- C123 where it holds: if no layer has several inputs, then a prediction for inputs that no layer rejects gives the values that the layers
compute, whatever happened before. -/
theorem C123_single_partial (g : Connections) (layer : Nat → List T → Option T) (heads outs : List Nat) (rank : Nat → Nat) (depth : Nat)
    (wf : WellFormed g heads rank depth)
    (hone : ∀ e e', e < g.length → e' < g.length → dst g e = dst g e' → e = e')
    (houts : ∀ o ∈ outs, IsNode g heads o ∧ ∀ e, e < g.length → src g e ≠ o) (fuel : Nat) (hfuel : depth < fuel) (given val : Nat → T)
    (hval : Computes g layer heads given val) (s : State T) :
    ∃ s', predictF g layer fuel heads outs (heads.map given) s = some (some (outs.map fun o => some (val o)), s') := by
  have hall : ∀ (l : List Nat) (s : State T), (∀ h ∈ l, h ∈ heads) →
      ∃ s', forwardAllF g layer fuel (l.map fun v => (v, given v)) s = some (s', false) ∧ Delivers g val l s s' := by
    intro l
    induction l with
    | nil => intro s _; exact ⟨s, rfl, fun w _ => ⟨fun ⟨_, h, _⟩ => by simp at h, fun _ => rfl⟩⟩
    | cons h l ih =>
      intro s hl
      have hh := hl h List.mem_cons_self
      obtain ⟨s1, h1, h2⟩ := doForwardF_any layer heads rank depth wf hone given val hval fuel h (Or.inl hh) (by omega) (by omega) s
      have ha : args g heads given val h = [given h] := by unfold args; rw [if_pos hh]
      rw [ha] at h1
      obtain ⟨s2, h3, h4⟩ := ih s1 fun h' hh' => hl h' (List.mem_cons_of_mem _ hh')
      refine ⟨s2, ?_, h2.trans h4⟩
      simp only [List.map_cons, forwardAllF, h1]
      exact h3
  obtain ⟨s', h1, h2⟩ := hall heads s fun _ h => h
  have hreach : ∀ k v, rank v = k → IsNode g heads v → ∃ h ∈ heads, Below g h v := by
    intro k
    induction k using Nat.strongRecOn with
    | ind k ih =>
      intro v hv hn
      rcases hn with hn | ⟨e, he, hd⟩
      · exact ⟨v, hn, .refl⟩
      · have k3 := (wf.ranked e he).1
        rw [hd] at k3
        obtain ⟨h, hh, hb⟩ := ih _ (by omega) (src g e) rfl (wf.start e he)
        exact ⟨h, hh, hd ▸ .step e he hb⟩
  refine ⟨{ s' with output := fun w => if w ∈ outs then none else s'.output w }, ?_⟩
  unfold predictF
  rw [if_neg (by simp), zip_given, h1]
  have hmap : outs.map s'.output = outs.map fun o => some (val o) := List.map_congr_left fun o ho => by
    obtain ⟨hn, he⟩ := houts o ho
    refine (h2 o ?_).1 (hreach _ o rfl hn)
    rw [List.eq_nil_iff_forall_not_mem]
    intro e he'
    obtain ⟨k1, k2⟩ := (mem_outputs g o e).mp he'
    exact he e k1 k2
  simp only [hmap]

/-- C123 for a wrong number of inputs: the exception comes before anything is changed. -/
theorem C123_count (g : Connections) (layer : Nat → List T → Option T) (fuel : Nat) (heads outs : List Nat) (given : List T)
    (h : given.length ≠ heads.length) (later : List (List T)) (s : State T) :
    predictions g layer fuel heads outs (given :: later) s = (predictions g layer fuel heads outs later s).map fun r => (none :: r.1, r.2) := by
  rw [predictions, predictF, if_pos h]

/-- Two inputs (0 and 1), joined (2), and one more layer (3), the output. -/
def joined : Connections := [(0, 2), (1, 2), (2, 3)]

/-- What the network `joined` computes for its inputs. -/
def joinedValue (layer : Nat → List T → Option T) (x y : T) : Option T :=
  (layer 0 [x]).bind fun a => (layer 1 [y]).bind fun b => (layer 2 [a, b]).bind fun c => layer 3 [c]

/-- One prediction while the second connection holds what the second input gave before. -/
theorem joined_stale (layer : Nat → List T → Option T) (x y b b' a c r : T) (h0 : layer 0 [x] = some a) (h1 : layer 1 [y] = some b')
    (h2 : layer 2 [a, b] = some c) (h3 : layer 3 [c] = some r) (s : State T) (hs : s.pending 1 = some b) :
    (predictF joined layer 4 [0, 1] [3] [x, y] s).map (fun p => (p.1, p.2.pending 1)) = some (some [some r], some b') := by
  obtain ⟨p, o, l⟩ := s
  simp only at hs
  simp [predictF, forwardAllF, doForwardF, h0, h1, h2, h3, show outputs joined 0 = [0] from rfl, show outputs joined 1 = [1] from rfl,
      show outputs joined 2 = [2] from rfl, show outputs joined 3 = [] from rfl, sendAllF, sendF, ready, show dst joined 0 = 2 from rfl,
      show dst joined 1 = 2 from rfl, show dst joined 2 = 3 from rfl, show inputs joined 2 = [0, 1] from rfl, show inputs joined 3 = [2] from rfl,
      hs, clear]

/-- A prediction that fails behind the join, while the connections are empty. -/
theorem joined_failed (layer : Nat → List T → Option T) (x y a b : T) (h0 : layer 0 [x] = some a) (h1 : layer 1 [y] = some b)
    (hfail : (layer 2 [a, b]).bind (fun c => layer 3 [c]) = none) (s : State T) (hs : s.pending 1 = none) :
    (predictF joined layer 4 [0, 1] [3] [x, y] s).map (fun p => (p.1, p.2.pending 1)) = some (none, some b) := by
  obtain ⟨p, o, l⟩ := s
  simp only at hs
  cases h2 : layer 2 [a, b] with
  | none =>
    simp [predictF, forwardAllF, doForwardF, h0, h1, h2, show outputs joined 0 = [0] from rfl, show outputs joined 1 = [1] from rfl,
      sendAllF, sendF, ready, show dst joined 0 = 2 from rfl, show dst joined 1 = 2 from rfl, show inputs joined 2 = [0, 1] from rfl, hs]
  | some c =>
    rw [h2] at hfail
    replace hfail : layer 3 [c] = none := hfail
    simp [predictF, forwardAllF, doForwardF, h0, h1, h2, hfail, show outputs joined 0 = [0] from rfl, show outputs joined 1 = [1] from rfl,
      show outputs joined 2 = [2] from rfl, sendAllF, sendF, ready, show dst joined 0 = 2 from rfl,
      show dst joined 1 = 2 from rfl, show dst joined 2 = 3 from rfl, show inputs joined 2 = [0, 1] from rfl, show inputs joined 3 = [2] from rfl, hs]

/-- A prediction that fails because of what the second connection still holds. -/
theorem joined_stuck (layer : Nat → List T → Option T) (x y a b : T) (h0 : layer 0 [x] = some a)
    (hfail : (layer 2 [a, b]).bind (fun c => layer 3 [c]) = none) (s : State T) (hs : s.pending 1 = some b) :
    (predictF joined layer 4 [0, 1] [3] [x, y] s).map (fun p => (p.1, p.2.pending 1)) = some (none, some b) := by
  obtain ⟨p, o, l⟩ := s
  simp only at hs
  cases h2 : layer 2 [a, b] with
  | none =>
    simp [predictF, forwardAllF, doForwardF, h0, h2, show outputs joined 0 = [0] from rfl,
      sendAllF, sendF, ready, show dst joined 0 = 2 from rfl, show inputs joined 2 = [0, 1] from rfl, hs]
  | some c =>
    rw [h2] at hfail
    replace hfail : layer 3 [c] = none := hfail
    simp [predictF, forwardAllF, doForwardF, h0, h2, hfail, show outputs joined 0 = [0] from rfl,
      show outputs joined 2 = [2] from rfl, sendAllF, sendF, ready, show dst joined 0 = 2 from rfl,
      show dst joined 2 = 3 from rfl, show inputs joined 2 = [0, 1] from rfl, show inputs joined 3 = [2] from rfl, hs]

/-- The values for each first input with the second input of the prediction before. -/
def shifted (layer : Nat → List T → Option T) : T → List (T × T) → List (Option T)
  | _, [] => []
  | y0, (x, y) :: ps => joinedValue layer x y0 :: shifted layer y ps

theorem joined_shifted (layer : Nat → List T → Option T) : ∀ (ps : List (T × T)) (y0 b0 : T) (s : State T), layer 1 [y0] = some b0 →
    s.pending 1 = some b0 → (∀ p ∈ ps, (layer 1 [p.2]).isSome) → (∀ r ∈ shifted layer y0 ps, r.isSome) →
    ∃ s', predictions joined layer 4 [0, 1] [3] (ps.map fun p => [p.1, p.2]) s = some ((shifted layer y0 ps).map fun r => some [r], s') := by
  intro ps
  induction ps with
  | nil => intro y0 b0 s _ _ _ _; exact ⟨s, rfl⟩
  | cons p ps ih =>
    obtain ⟨x, y⟩ := p
    intro y0 b0 s hb hs hy hr
    have hv : (joinedValue layer x y0).isSome := hr _ List.mem_cons_self
    obtain ⟨r, hv⟩ := Option.isSome_iff_exists.mp hv
    obtain ⟨b', hb'⟩ := Option.isSome_iff_exists.mp (hy (x, y) List.mem_cons_self)
    have hj := hv
    unfold joinedValue at hj
    obtain ⟨a, h0, hj⟩ := Option.bind_eq_some_iff.mp hj
    rw [hb] at hj
    obtain ⟨c, h2, h3⟩ := Option.bind_eq_some_iff.mp (show (layer 2 [a, b0]).bind _ = some r from hj)
    have hp := joined_stale layer x y b0 b' a c r h0 hb' h2 h3 s hs
    cases hq : predictF joined layer 4 [0, 1] [3] [x, y] s with
    | none => rw [hq] at hp; cases hp
    | some q =>
      obtain ⟨q1, q2⟩ := q
      rw [hq] at hp
      simp only [Option.map_some, Option.some.injEq, Prod.mk.injEq] at hp
      obtain ⟨s', hs'⟩ := ih y b' q2 hb' hp.2 (fun p hp => hy p (List.mem_cons_of_mem _ hp)) (fun r hr' => hr r (List.mem_cons_of_mem _ hr'))
      refine ⟨s', ?_⟩
      show predictions joined layer 4 [0, 1] [3] ([x, y] :: ps.map fun p => [p.1, p.2]) s = _
      unfold predictions
      rw [hq]
      simp only [hs', Option.map_some, hp.1, shifted, hv, List.map_cons]

/-- C123, after a failed prediction with two inputs that are joined: every later prediction is made from its own first input and the second input
of the prediction before it, the failed one to begin with. No exception tells so. -/
theorem C123_shift (layer : Nat → List T → Option T) (x0 y0 : T) (h0 : (layer 0 [x0]).isSome) (h1 : (layer 1 [y0]).isSome)
    (hfail : joinedValue layer x0 y0 = none) (ps : List (T × T)) (hy : ∀ p ∈ ps, (layer 1 [p.2]).isSome)
    (hr : ∀ r ∈ shifted layer y0 ps, r.isSome) :
    ∃ s', predictions joined layer 4 [0, 1] [3] ([x0, y0] :: ps.map fun p => [p.1, p.2]) fresh =
      some (none :: (shifted layer y0 ps).map fun r => some [r], s') := by
  obtain ⟨a, h0⟩ := Option.isSome_iff_exists.mp h0
  obtain ⟨b, h1⟩ := Option.isSome_iff_exists.mp h1
  unfold joinedValue at hfail
  rw [h0, h1] at hfail
  have hp := joined_failed layer x0 y0 a b h0 h1 hfail fresh rfl
  cases hq : predictF joined layer 4 [0, 1] [3] [x0, y0] fresh with
  | none => rw [hq] at hp; cases hp
  | some q =>
    obtain ⟨q1, q2⟩ := q
    rw [hq] at hp
    simp only [Option.map_some, Option.some.injEq, Prod.mk.injEq] at hp
    obtain ⟨s', hs'⟩ := joined_shifted layer ps y0 b q2 h1 hp.2 hy hr
    refine ⟨s', ?_⟩
    unfold predictions
    rw [hq]
    simp only [hs', Option.map_some, hp.1]

/-- C123, when the second input was the one that is rejected: every later prediction throws. -/
theorem C123_stuck (layer : Nat → List T → Option T) (x0 y0 : T) (h0 : (layer 0 [x0]).isSome) (h1 : (layer 1 [y0]).isSome)
    (hfail : joinedValue layer x0 y0 = none) (ps : List (T × T)) (hx : ∀ p ∈ ps, (layer 0 [p.1]).isSome)
    (hall : ∀ p ∈ ps, joinedValue layer p.1 y0 = none) :
    ∃ s', predictions joined layer 4 [0, 1] [3] ([x0, y0] :: ps.map fun p => [p.1, p.2]) fresh = some (none :: ps.map fun _ => none, s') := by
  obtain ⟨a, h0⟩ := Option.isSome_iff_exists.mp h0
  obtain ⟨b, h1⟩ := Option.isSome_iff_exists.mp h1
  unfold joinedValue at hfail
  rw [h0, h1] at hfail
  have hlater : ∀ (ps : List (T × T)) (s : State T), s.pending 1 = some b → (∀ p ∈ ps, (layer 0 [p.1]).isSome) →
      (∀ p ∈ ps, joinedValue layer p.1 y0 = none) →
      ∃ s', predictions joined layer 4 [0, 1] [3] (ps.map fun p => [p.1, p.2]) s = some (ps.map fun _ => none, s') := by
    intro ps
    induction ps with
    | nil => intro s _ _ _; exact ⟨s, rfl⟩
    | cons p ps ih =>
      obtain ⟨x, y⟩ := p
      intro s hs hx hall
      obtain ⟨a', ha'⟩ := Option.isSome_iff_exists.mp (hx _ List.mem_cons_self)
      have hf := hall _ List.mem_cons_self
      unfold joinedValue at hf
      rw [ha', h1] at hf
      have hp := joined_stuck layer x y a' b ha' hf s hs
      cases hq : predictF joined layer 4 [0, 1] [3] [x, y] s with
      | none => rw [hq] at hp; cases hp
      | some q =>
        obtain ⟨q1, q2⟩ := q
        rw [hq] at hp
        simp only [Option.map_some, Option.some.injEq, Prod.mk.injEq] at hp
        obtain ⟨s', hs'⟩ := ih q2 hp.2 (fun p h => hx p (List.mem_cons_of_mem _ h)) (fun p h => hall p (List.mem_cons_of_mem _ h))
        refine ⟨s', ?_⟩
        show predictions joined layer 4 [0, 1] [3] ([x, y] :: ps.map fun p => [p.1, p.2]) s = _
        unfold predictions
        rw [hq]
        simp only [hs', Option.map_some, hp.1, List.map_cons]
  have hp := joined_failed layer x0 y0 a b h0 h1 hfail fresh rfl
  cases hq : predictF joined layer 4 [0, 1] [3] [x0, y0] fresh with
  | none => rw [hq] at hp; cases hp
  | some q =>
    obtain ⟨q1, q2⟩ := q
    rw [hq] at hp
    simp only [Option.map_some, Option.some.injEq, Prod.mk.injEq] at hp
    obtain ⟨s', hs'⟩ := hlater ps q2 hp.2 hx hall
    refine ⟨s', ?_⟩
    unfold predictions
    rw [hq]
    simp only [hs', Option.map_some, hp.1]

/-- Layers for `joined` on rows of numbers: the inputs are passed on, joined side by side, and the last layer wants two columns. -/
def rows : Nat → List (List Int) → Option (List Int)
  | 0, [x] => some x
  | 1, [x] => some x
  | 2, [x, y] => some (x ++ y)
  | 3, [[x, y]] => some [x + 10 * y]
  | _, _ => none

/-- C123 does not hold: a network that is asked for `[1, 1]`, `[5]`, which the last layer rejects, answers the next question, `[2]` and `[3]`, with 52,
where it would have answered 32. -/
theorem C123_violated :
    (predictions joined rows 4 [0, 1] [3] [[[2], [3]]] fresh).map (·.1) = some [some [some [32]]] ∧
    (predictions joined rows 4 [0, 1] [3] [[[1, 1], [5]], [[2], [3]]] fresh).map (·.1) = some [none, some [some [52]]] := by
  constructor
  · decide +kernel
  · obtain ⟨s', h⟩ := C123_shift rows [1, 1] [5] (by decide) (by decide) (by decide) [([2], [3])] (by decide) (by decide)
    simp only [List.map_cons, List.map_nil] at h
    rw [h]
    rfl

/-- C123 does not hold: after `[1]`, `[5, 5]`, which the last layer rejects, the network answers nothing any more. -/
theorem C123_forever_violated (ps : List (Int × Int)) :
    (∀ p ∈ ps, joinedValue rows [p.1] [p.2] = some [p.1 + 10 * p.2]) ∧
    ∃ s', predictions joined rows 4 [0, 1] [3] ([[1], [5, 5]] :: ps.map fun p => [[p.1], [p.2]]) fresh = some (none :: ps.map fun _ => none, s') := by
  refine ⟨fun p _ => rfl, ?_⟩
  obtain ⟨s', h⟩ := C123_stuck rows [1] [5, 5] (by decide) (by decide) (by decide) (ps.map fun p => ([p.1], [p.2])) (by
    intro p hp
    rfl) (by
    intro p hp
    obtain ⟨q, _, rfl⟩ := List.mem_map.mp hp
    rfl)
  refine ⟨s', ?_⟩
  simp only [List.map_map] at h
  exact h

/-! ### Examples -/

/-- The hypotheses of `C123_clean_partial` for the joined network. -/
example : ∃ s', predictF joined rows 4 [0, 1] [3] [[2], [3]] fresh = some (some [some [32]], s') ∧ ∀ e, e < 3 → s'.pending e = none :=
  C123_clean_partial joined rows [0, 1] [3] (fun v => if v < 2 then 0 else v - 1) 2
    ⟨by decide, by decide, by unfold IsNode; decide, by unfold Ranked; decide⟩ (by unfold IsNode; decide) 4 (by decide)
    (fun v => [(v : Int) + 2]) (fun v => if v = 3 then [32] else if v = 2 then [2, 3] else [(v : Int) + 2]) (by
      intro v hv
      have : v = 0 ∨ v = 1 ∨ v = 2 ∨ v = 3 := by
        rcases hv with h | ⟨e, he, h⟩
        · simp at h; omega
        · have he : e < 3 := he
          obtain rfl | rfl | rfl : e = 0 ∨ e = 1 ∨ e = 2 := by omega
          · exact Or.inr (Or.inr (Or.inl h.symm))
          · exact Or.inr (Or.inr (Or.inl h.symm))
          · exact Or.inr (Or.inr (Or.inr h.symm))
      rcases this with rfl | rfl | rfl | rfl <;> decide) fresh rfl (fun _ _ => rfl)

/-- Layers for a chain with two ends: the first layer takes one column only. -/
def fork : Nat → List (List Int) → Option (List Int)
  | 0, [[x]] => some [x, x + 1]
  | 1, [[x, y]] => some [x * y]
  | 2, [[x, y]] => if x < 0 then none else some [x + y]
  | _, _ => none

/-- The hypotheses of `C123_single_partial` for a network with one input and two outputs, one of which rejects negative numbers; the state is the one
after such a failure. -/
example : ∃ s s', predictF [(0, 1), (0, 2)] fork 2 [0] [1, 2] [[-3]] fresh = some (none, s) ∧
    predictF [(0, 1), (0, 2)] fork 2 [0] [1, 2] [[4]] s = some (some [some [20], some [9]], s') := by
  obtain ⟨⟨r, s⟩, h⟩ : ∃ q, predictF [(0, 1), (0, 2)] fork 2 [0] [1, 2] [[-3]] fresh = some q := ⟨_, rfl⟩
  have hr : (predictF [(0, 1), (0, 2)] fork 2 [0] [1, 2] [[-3]] fresh).map (·.1) = some none := by decide +kernel
  rw [h] at hr
  obtain rfl : r = none := by simpa using hr
  obtain ⟨s', h'⟩ := C123_single_partial [(0, 1), (0, 2)] fork [0] [1, 2] (fun v => if v = 0 then 0 else 1) 1
    ⟨by decide, by decide, by unfold IsNode; decide, by unfold Ranked; decide⟩ (by
      intro e e' he he'
      replace he : e < 2 := he
      replace he' : e' < 2 := he'
      obtain rfl | rfl : e = 0 ∨ e = 1 := by omega
      all_goals obtain rfl | rfl : e' = 0 ∨ e' = 1 := by omega
      all_goals decide) (by unfold IsNode; decide) 2 (by decide)
    (fun _ => [4]) (fun v => if v = 0 then [4, 5] else if v = 1 then [20] else [9]) (by
      intro v hv
      have : v = 0 ∨ v = 1 ∨ v = 2 := by
        rcases hv with h | ⟨e, he, h⟩
        · simp at h; omega
        · have he : e < 2 := he
          obtain rfl | rfl : e = 0 ∨ e = 1 := by omega
          · exact Or.inr (Or.inl h.symm)
          · exact Or.inr (Or.inr h.symm)
      rcases this with rfl | rfl | rfl <;> decide) s
  exact ⟨s, s', h, h'⟩

end Verif.Graph
