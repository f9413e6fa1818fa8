import Verif.Model.Muca
import Verif.Model.Gauge
import Mathlib.Analysis.SpecialFunctions.Log.Basic

/-!
# Model of applications/multicanonical_example

The program of multicanonical_example.cpp; mmain.cpp in the same directory has the same functions, written for an older interface. The number of dimensions
is arbitrary (the program wants 3). Random numbers are arguments: which numbers the generators give is the subject of C86. The weights are not iterated
inside `accept_reject` (`AR_iteration` off).
-/

namespace Hila

variable {n : ℕ} {L : Fin n → ℕ}

/-- The C function `log` of a random number: minus infinity at zero. -/
noncomputable def mcLog (r : ℝ) : Option ℝ := if r = 0 then none else some (Real.log r)

/-- multicanonical_example.cpp:20-31 `compute_local_action`. -/
def mcLocalAction (phi : PSite L → ℝ) : PSite L → ℝ :=
  (List.finRange n).foldl (fun a d x => a x + (phi x - phi (x - unitStep d)) ^ 2 + (phi (x + unitStep d) - phi x) ^ 2)
    fun x => -phi x ^ 2 + phi x ^ 4

/-- multicanonical_example.cpp:35-38 `order_parameter`. -/
noncomputable def mcOrder [∀ d, NeZero (L d)] (phi : PSite L → ℝ) : ℝ := (∑ x, phi x) / (∏ d, L d : ℕ)

/-- multicanonical_example.cpp:60: `log_rand > log_P`, where the logarithm of zero is minus infinity. -/
noncomputable def mcReject (u logp : ℝ) : Prop := ∃ l, mcLog u = some l ∧ l > logp

open Classical in
/-- multicanonical_example.cpp:43-63: the field `new_phi` before the last decision. `delta` are the gaussian numbers, `u` the uniform ones. -/
noncomputable def mcPropose (par : Parity) (phi delta u : PSite L → ℝ) : PSite L → ℝ :=
  let delta' := assignOn par (fun _ => 0) delta
  let new := fun x => phi x + 0.5 * delta' x
  let oldAction := mcLocalAction phi
  let newAction := mcLocalAction new
  assignOn par new fun x => if mcReject (u x) (-(newAction x - oldAction x)) then phi x else new x

/-- multicanonical_example.cpp:43-72 `multican_update` with the tables of the weight function; `r` is the random number of `accept_reject`. -/
noncomputable def mcUpdate [∀ d, NeZero (L d)] (hard : Bool) (centers weights : List ℝ) (par : Parity) (phi delta u : PSite L → ℝ) (r : ℝ) : Option (PSite L → ℝ) :=
  let new := mcPropose par phi delta u
  (acceptReject mcLog hard centers weights (mcOrder phi) (mcOrder new) r).map fun b => if b then new else phi

end Hila
