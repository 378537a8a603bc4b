import Verif.Model.Enums

/-!
# C72: names of layer, activation, loss and optimizer kinds round-trip

A pair of functions `name` and `parse` is a *faithful naming* if a string is read as a kind exactly
when it is the name of that kind.  Everything a user wants follows: names read back as the kind they
were written for, two kinds never share a name, and every string that is no name is rejected.
-/

namespace Verif.Enums

/-- A string is read as `k` exactly when it is the name of `k`. -/
def Faithful {K : Type} (name : K → String) (parse : String → Option K) : Prop :=
  ∀ s k, parse s = some k ↔ s = name k

/-- What a faithful naming gives: the round trip, distinct names, and rejection of everything else. -/
theorem Faithful.spec {K : Type} {name : K → String} {parse : String → Option K} (h : Faithful name parse) :
    (∀ k, parse (name k) = some k) ∧ Function.Injective name ∧ (∀ s, (∀ k, s ≠ name k) → parse s = none) := by
  refine ⟨fun k => (h _ k).2 rfl, fun a b hab => ?_, fun s hs => ?_⟩
  · have h1 := (h (name a) a).2 rfl
    have h2 := (h (name a) b).2 hab
    rw [h1] at h2
    exact Option.some.inj h2
  · cases hp : parse s with
    | none => rfl
    | some k => exact absurd ((h s k).1 hp) (hs k)

/-- Activation names. -/
theorem C72_activation : Faithful activationTypeToString stringToActivationType := by
  intro s k
  unfold stringToActivationType
  constructor
  · intro h
    repeat' split at h
    all_goals first
      | (cases h; assumption)
      | cases h
  · rintro rfl
    cases k <;> decide

/-- Layer names. -/
theorem C72_layer : Faithful nodeTypeToString stringToNodeType := by
  intro s k
  unfold stringToNodeType
  constructor
  · intro h
    repeat' split at h
    all_goals first
      | (cases h; assumption)
      | cases h
  · rintro rfl
    cases k <;> decide

/-- Loss names. -/
theorem C72_loss : Faithful lossTypeToString stringToLossType := by
  intro s k
  unfold stringToLossType
  constructor
  · intro h
    repeat' split at h
    all_goals first
      | (cases h; assumption)
      | cases h
  · rintro rfl
    cases k <;> decide

/-- Optimizer names. -/
theorem C72_optimizer : Faithful optimizerTypeToString stringToOptimizerType := by
  intro s k
  unfold stringToOptimizerType
  constructor
  · intro h
    repeat' split at h
    all_goals first
      | (cases h; assumption)
      | cases h
  · rintro rfl
    cases k <;> decide

/-- Names contain no delimiter of the model file: a field of `model.config` ends at `:` or at the end
of the line, so no name is split when it is read back. -/
theorem C72_no_delimiter :
    (∀ k, ':' ∉ (activationTypeToString k).toList ∧ '\n' ∉ (activationTypeToString k).toList) ∧
    (∀ k, ':' ∉ (nodeTypeToString k).toList ∧ '\n' ∉ (nodeTypeToString k).toList) ∧
    (∀ k, ':' ∉ (lossTypeToString k).toList ∧ '\n' ∉ (lossTypeToString k).toList) ∧
    (∀ k, ':' ∉ (optimizerTypeToString k).toList ∧ '\n' ∉ (optimizerTypeToString k).toList) := by
  refine ⟨?_, ?_, ?_, ?_⟩ <;> intro k <;> cases k <;> decide

/-- A misspelled name is rejected, a name is not. -/
example : stringToOptimizerType "adam" = none ∧ stringToOptimizerType "Adam" = some .adam ∧
    stringToActivationType "tanhDefault" = none ∧ stringToNodeType "" = none := by decide

end Verif.Enums
