import Verif.Model.ExitStrategy
import Mathlib.Tactic.Linarith
import Mathlib.Data.List.Induction

/-! C54: training stops within its limits, and the reported reason holds. -/
namespace Verif.ExitStrategy
variable {F : Type} [Field F] [LinearOrder F]

theorem record_epoch (l : Limits F) (s s' : State F) (epoch : Nat) (loss : Num F) (h : record l s epoch loss = some s') :
    s'.lowestLossEpoch ≤ epoch := by
  unfold record at h
  split at h
  · simp only [Option.some.injEq] at h; subst h; exact Nat.le_refl _
  · split at h
    · exact absurd h (by simp)
    · simp only [Option.some.injEq] at h; subst h; omega

theorem record_some (l : Limits F) (s : State F) (epoch : Nat) (loss : Num F) (h : s.lowestLossEpoch ≤ epoch) :
    ∃ s', record l s epoch loss = some s' := by
  unfold record
  split
  · exact ⟨_, rfl⟩
  · rw [if_neg (by omega)]; exact ⟨_, rfl⟩

theorem history_append (l : Limits F) (a b : List (Num F)) : ∀ (s : State F) (epoch : Nat),
    history l s epoch (a ++ b) = (history l s epoch a).bind fun s' => history l s' (epoch + a.length) b := by
  induction a with
  | nil => intro s epoch; rfl
  | cons x a ih =>
    intro s epoch
    rw [List.cons_append, history, history]
    cases record l s epoch x with
    | none => rfl
    | some s' => simp only [ih, List.length_cons]; rw [show epoch + 1 + a.length = epoch + (a.length + 1) by omega]

theorem history_some (l : Limits F) (ls : List (Num F)) : ∀ (s : State F) (epoch : Nat), s.lowestLossEpoch ≤ epoch →
    ∃ s', history l s epoch ls = some s' ∧ s'.lowestLossEpoch ≤ epoch + ls.length := by
  induction ls with
  | nil => intro s epoch h; exact ⟨s, rfl, by simpa using h⟩
  | cons x a ih =>
    intro s epoch h
    obtain ⟨s', hs'⟩ := record_some l s epoch x h
    have := record_epoch l s s' epoch x hs'
    obtain ⟨s'', h1, h2⟩ := ih s' (epoch + 1) (by omega)
    exact ⟨s'', by simp only [history, hs', h1], by simp only [List.length_cons]; omega⟩

/-- The state of a strategy that was asked for the epochs 1, 2, ..., with the given losses. -/
def Reached (l : Limits F) (losses : List (Num F)) (s : State F) : Prop := history l initial 1 losses = some s

theorem reached_exists (l : Limits F) (losses : List (Num F)) : ∃ s, Reached l losses s := by
  obtain ⟨s, h, _⟩ := history_some l losses initial 1 (by simp [initial])
  exact ⟨s, h⟩

theorem reached_epoch (l : Limits F) (losses : List (Num F)) (s : State F) (h : Reached l losses s) :
    s.lowestLossEpoch ≤ losses.length + 1 := by
  obtain ⟨s', h1, h2⟩ := history_some l losses initial 1 (by simp [initial])
  rw [Reached, h1] at h
  simp only [Option.some.injEq] at h
  subst h
  omega

/-- `isDone` for the next epoch reaches the state of the longer history. -/
theorem isDone_reached (l : Limits F) (losses : List (Num F)) (s : State F) (h : Reached l losses s) (loss : Num F) (t : Int) :
    ∃ d s', isDone l s (losses.length + 1) loss t = some (d, s') ∧ Reached l (losses ++ [loss]) s' := by
  obtain ⟨s', hs'⟩ := record_some l s (losses.length + 1) loss (reached_epoch l losses s h)
  refine ⟨_, s', by unfold isDone; rw [hs'], ?_⟩
  unfold Reached at *
  rw [history_append, h]
  simp only [Option.bind_some, history, show 1 + losses.length = losses.length + 1 by omega, hs']

/-- C54: for any losses (also infinite ones and "not a number") the strategy can be asked for the next epoch without an
exception; it never stops before the minimum number of epochs, and from then on always stops when the maximum number of epochs, the
time limit or the tolerance for zero is reached. -/
theorem C54 (l : Limits F) (losses : List (Num F)) (s : State F) (h : Reached l losses s) (loss : Num F) (elapsed : Int) :
    ∃ d s', isDone l s (losses.length + 1) loss elapsed = some (d, s') ∧
      (d = true → l.minEpochs ≤ losses.length + 1) ∧
      (l.minEpochs ≤ losses.length + 1 →
        (l.maxEpochs ≤ losses.length + 1 ∨ l.maxElapsedTime ≤ elapsed ∨ loss.le l.zeroPrecisionTolerance = true) → d = true) := by
  obtain ⟨s', hs'⟩ := record_some l s (losses.length + 1) loss (reached_epoch l losses s h)
  refine ⟨_, s', by unfold isDone; rw [hs'], ?_, ?_⟩
  · intro hd
    simp only [ge_iff_le, Bool.and_eq_true, decide_eq_true_eq] at hd
    exact hd.1
  · rintro h1 (h2 | h2 | h2) <;> simp [h1, h2]

/-- C54: whatever the losses and times, training stops at the latest when both the minimum and the maximum number of epochs are
reached. -/
theorem C54_terminates (l : Limits F) (losses : Nat → Num F) (elapsed : Nat → Int) :
    ∃ n, n ≤ max 1 (max l.minEpochs l.maxEpochs) ∧ 1 ≤ n ∧
      ∃ s s', Reached l ((List.range (n - 1)).map losses) s ∧ isDone l s n (losses (n - 1)) (elapsed (n - 1)) = some (true, s') := by
  obtain ⟨n, hn⟩ : ∃ n, n = max 1 (max l.minEpochs l.maxEpochs) := ⟨_, rfl⟩
  obtain ⟨s, hs⟩ := reached_exists l ((List.range (n - 1)).map losses)
  obtain ⟨d, s', h1, _, h3⟩ := C54 l _ s hs (losses (n - 1)) (elapsed (n - 1))
  have hlen : ((List.range (n - 1)).map losses).length + 1 = n := by simp; omega
  rw [hlen] at h1 h3
  have := h3 (by omega) (Or.inl (by omega))
  subst this
  exact ⟨n, by omega, by omega, s, s', hs, h1⟩

/-- Finite losses. -/
def finite (losses : List F) : List (Num F) := losses.map .fin

/-- The recorded epoch `e` of a history of finite losses: its loss is not above any loss before (and below it, if the
tolerance is positive), and no later loss is lower by the
improvement tolerance. -/
def Recorded (tol : F) (losses : List F) (e : Nat) (x : F) : Prop :=
  1 ≤ e ∧ losses[e - 1]? = some x ∧
    (∀ i y, i + 1 < e → losses[i]? = some y → x ≤ y ∧ (0 < tol → x < y)) ∧
    (∀ i y, e ≤ i → losses[i]? = some y → x < y + tol)

theorem reached_recorded [IsStrictOrderedRing F] (l : Limits F) (tol : F) (htol : l.improvementTolerance = .fin tol) (hpos : 0 ≤ tol) (losses : List F) :
    ∀ s, Reached l (finite losses) s →
      (losses = [] ∧ s = initial) ∨ ∃ x, s.lowestLoss = .fin x ∧ Recorded tol losses s.lowestLossEpoch x := by
  induction losses using List.reverseRecOn with
  | nil => intro s h; left; simpa [Reached, finite, history, eq_comm] using h
  | append_singleton xs y ih =>
    intro s' h'
    right
    obtain ⟨s, hs⟩ := reached_exists l (finite xs)
    have hrec : record l s (xs.length + 1) (.fin y) = some s' := by
      unfold Reached at h' hs
      rw [show finite (xs ++ [y]) = finite xs ++ [.fin y] by simp [finite], history_append, hs] at h'
      simp only [Option.bind_some, history, show (finite xs).length = xs.length by simp [finite],
        show 1 + xs.length = xs.length + 1 by omega] at h'
      cases hr : record l s (xs.length + 1) (.fin y) with
      | none => rw [hr] at h'; simp at h'
      | some s2 => rw [hr] at h'; simpa using h'
    have hnew : ∀ x : F, (∀ (i : Nat) (z : F), xs[i]? = some z → x ≤ z ∧ (0 < tol → x < z)) → x = y → Recorded tol (xs ++ [y]) (xs.length + 1) x := by
      intro x hx hxy
      subst hxy
      refine ⟨by omega, by simp, ?_, ?_⟩
      · intro i z hi hz
        rw [List.getElem?_append_left (by omega)] at hz
        exact hx i z hz
      · intro i z hi hz
        rw [List.getElem?_eq_none (by simp; omega)] at hz
        exact absurd hz (by simp)
    rcases ih s hs with ⟨h0, h1⟩ | ⟨x, hx, he, hat, hbefore, hafter⟩
    · subst h0; subst h1
      simp only [record, htol, initial, Num.add, Num.le, if_true, Num.min, Num.lt, Bool.false_eq_true, if_false,
        Option.some.injEq] at hrec
      subst hrec
      exact ⟨y, rfl, hnew y (by simp) rfl⟩
    · unfold record at hrec
      rw [htol, hx] at hrec
      simp only [Num.add, Num.le, decide_eq_true_eq] at hrec
      split at hrec
      · rename_i hle
        simp only [Option.some.injEq] at hrec
        have hyx : y ≤ x := by linarith
        have hmin : Num.min (.fin y) (.fin x) = .fin y := by
          simp [Num.min, Num.lt, hyx]
        rw [hmin] at hrec
        subst hrec
        refine ⟨y, rfl, hnew y ?_ rfl⟩
        intro i z hz
        rcases Nat.lt_or_ge (i + 1) s.lowestLossEpoch with h | h
        · have := (hbefore i z h hz).1
          exact ⟨by linarith, fun _ => by linarith⟩
        · rcases Nat.lt_or_ge i s.lowestLossEpoch with h' | h'
          · rw [show i = s.lowestLossEpoch - 1 by omega, hat] at hz
            simp only [Option.some.injEq] at hz
            subst hz
            exact ⟨hyx, fun _ => by linarith⟩
          · have := hafter i z h' hz
            exact ⟨by linarith, fun _ => by linarith⟩
      · rename_i hle
        split at hrec
        · exact absurd hrec (by simp)
        · simp only [Option.some.injEq] at hrec
          subst hrec
          have hlt : s.lowestLossEpoch - 1 < xs.length := by
            rcases Nat.lt_or_ge (s.lowestLossEpoch - 1) xs.length with h | h
            · exact h
            · rw [List.getElem?_eq_none h] at hat; exact absurd hat (by simp)
          refine ⟨x, hx, he, by rw [List.getElem?_append_left hlt, hat], ?_, ?_⟩
          · intro i z hi hz
            rw [List.getElem?_append_left (by omega)] at hz
            exact hbefore i z hi hz
          · intro i z hi hz
            rcases Nat.lt_or_ge i xs.length with h | h
            · rw [List.getElem?_append_left h] at hz; exact hafter i z hi hz
            · have hi' : i < (xs ++ [y]).length := by
                rcases Nat.lt_or_ge i (xs ++ [y]).length with h | h
                · exact h
                · rw [List.getElem?_eq_none h] at hz; exact absurd hz (by simp)
              have : i = xs.length := by simp at hi'; omega
              subst this
              simp at hz
              subst hz
              exact not_le.mp hle

/-- C54, patience: if some loss was not undercut in the last `patience` epochs, training stops (once the minimum number of
epochs is reached). -/
theorem C54_patience [IsStrictOrderedRing F] (l : Limits F) (tol : F) (htol : l.improvementTolerance = .fin tol) (hpos : 0 < tol)
    (losses : List F) (s : State F) (h : Reached l (finite losses) s) (loss : F) (elapsed : Int)
    (hmin : l.minEpochs ≤ losses.length + 1) (i : Nat) (x : F) (hi : (losses ++ [loss])[i]? = some x)
    (hpat : i + 1 + l.patience ≤ losses.length + 1)
    (hno : ∀ j y, losses.length + 1 - l.patience ≤ j → (losses ++ [loss])[j]? = some y → x ≤ y) :
    ∃ s', isDone l s (losses.length + 1) (.fin loss) elapsed = some (true, s') := by
  obtain ⟨d, s', h1, h2⟩ := isDone_reached l (finite losses) s h (.fin loss) elapsed
  rw [show (finite losses).length = losses.length by simp [finite]] at h1
  refine ⟨s', ?_⟩
  rw [h1]
  have hr : Reached l (finite (losses ++ [loss])) s' := by simpa [finite] using h2
  rcases reached_recorded l tol htol (le_of_lt hpos) _ s' hr with ⟨h0, _⟩ | ⟨z, hz, he, hat, hbefore, hafter⟩
  · simp at h0
  have hle : s'.lowestLossEpoch + l.patience ≤ losses.length + 1 := by
    by_contra hcon
    have h3 := hno (s'.lowestLossEpoch - 1) z (by omega) hat
    have h4 := (hbefore i x (by omega) hi).2 hpos
    exact absurd h3 (not_le.mpr h4)
  unfold isDone at h1
  split at h1
  · exact absurd h1 (by simp)
  · rename_i s2 hs2
    simp only [Option.some.injEq, Prod.mk.injEq] at h1
    obtain ⟨h5, h6⟩ := h1
    subst h6
    rw [← h5]
    simp [hmin, show l.patience ≤ losses.length + 1 - s2.lowestLossEpoch by omega]

/-- What a reported reason claims about the epochs `1, ..., losses.length` of a training, the last of which is asked about. -/
def Holds (l : Limits F) (tol : F) (losses : List F) (loss : F) (elapsed : Int) : Reason → Prop
  | .maximumEpochs => l.maxEpochs ≤ losses.length
  | .elapsedTime => l.maxElapsedTime ≤ elapsed
  | .zeroLoss => (Num.fin loss).le l.zeroPrecisionTolerance = true
  | .patience => ∃ e x, Recorded tol losses e x ∧ e + l.patience ≤ losses.length
  | .degradation => ∃ e x, Recorded tol losses e x ∧
      l.maxDegradationTolerance.le (((Num.fin loss).sub (.fin x)).div (.fin x)) = true
  | .shouldNotBeDone => False
  | .unknown => False

/-- C54, reason: when training stops, the reported reason is a condition that holds. -/
theorem C54_reason [IsStrictOrderedRing F] (l : Limits F) (tol : F) (htol : l.improvementTolerance = .fin tol) (hpos : 0 ≤ tol)
    (losses : List F) (s : State F) (h : Reached l (finite losses) s) (loss : F) (elapsed : Int) (s' : State F)
    (hdone : isDone l s (losses.length + 1) (.fin loss) elapsed = some (true, s')) :
    Holds l tol (losses ++ [loss]) loss elapsed (whyDone l s' (losses.length + 1) (.fin loss) elapsed) := by
  obtain ⟨d, s2, h1, h2⟩ := isDone_reached l (finite losses) s h (.fin loss) elapsed
  rw [show (finite losses).length = losses.length by simp [finite], hdone] at h1
  simp only [Option.some.injEq, Prod.mk.injEq] at h1
  obtain ⟨rfl, rfl⟩ := h1
  have hr : Reached l (finite (losses ++ [loss])) s' := by simpa [finite] using h2
  rcases reached_recorded l tol htol hpos _ s' hr with ⟨h0, _⟩ | ⟨z, hz, hrec⟩
  · simp at h0
  unfold isDone at hdone
  split at hdone
  · exact absurd hdone (by simp)
  rename_i s3 hs3
  simp only [Option.some.injEq, Prod.mk.injEq] at hdone
  obtain ⟨h5, h6⟩ := hdone
  subst h6
  simp only [ge_iff_le, Bool.and_eq_true, decide_eq_true_eq, Bool.or_eq_true] at h5
  obtain ⟨hmin, hor⟩ := h5
  have hepoch : s3.lowestLossEpoch ≤ losses.length + 1 := record_epoch l s s3 _ _ hs3
  unfold whyDone
  rw [if_neg (by omega)]
  split
  · simpa [Holds] using ‹_›
  split
  · rename_i hd
    refine ⟨_, z, hrec, ?_⟩
    unfold degradation at hd
    rw [hz] at hd
    exact hd
  split
  · simpa [Holds] using ‹_›
  split
  · rename_i hp
    rcases Nat.eq_zero_or_pos l.patience with h0 | h0
    · exact ⟨_, z, hrec, by simp; omega⟩
    · exact ⟨_, z, hrec, by simp; omega⟩
  split
  · simpa [Holds] using ‹_›
  · rename_i h7 h8 h9 h10 h11
    exfalso
    rcases hor with (((h | h) | h) | h) | h
    · exact h7 h
    · exact h8 h
    · exact h9 h
    · exact h10 h
    · exact h11 h

/-- The limits of `useLowPrecisionExitStrategy`, neural_network.hpp:171-179. -/
def lowPrecision : Limits ℚ := ⟨4, 7776000000, 1000000, .fin (1 / 1000), .fin (1 / 100000), 4, .fin (1 / 20)⟩

/-- A training whose loss stays at one half stops in epoch five for lack of improvement. -/
example : ∃ s, Reached lowPrecision (finite [1 / 2, 1 / 2, 1 / 2, 1 / 2]) s ∧
    (∃ s', isDone lowPrecision s 5 (.fin (1 / 2)) 100 = some (true, s') ∧
      whyDone lowPrecision s' 5 (.fin (1 / 2)) 100 = .patience) ∧
    0 + 1 + lowPrecision.patience ≤ [(1 / 2 : ℚ), 1 / 2, 1 / 2, 1 / 2].length + 1 := by
  refine ⟨⟨.fin (1 / 2), 1⟩, by unfold Reached; decide +kernel, ⟨⟨.fin (1 / 2), 1⟩, by decide +kernel, by decide +kernel⟩, by decide⟩

end Verif.ExitStrategy
