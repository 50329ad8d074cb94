import Verif.Model.Linear

/-!
# Names of temporal codings
-/

namespace Verif.Props

open Verif Linear

/-- The documented names of temporal codings. -/
def Spec.TemporalName (name : String) : Prop := name.toLower ∈ ["race", "tc", "race10", "tc10"]

instance (name : String) : Decidable (Spec.TemporalName name) := inferInstanceAs (Decidable (name.toLower ∈ _))

theorem temporal_iff {name : String} : isTemporal name = true ↔ Spec.TemporalName name := by
  unfold isTemporal Spec.TemporalName; exact decide_eq_true_iff

theorem temporal_false {name : String} (h : ¬ Spec.TemporalName name) : isTemporal name = false := by
  rw [← Bool.not_eq_true, temporal_iff]; exact h

end Verif.Props
