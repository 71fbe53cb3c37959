import Mathlib.Analysis.SpecialFunctions.Trigonometric.Inverse
import Verif.Model.Num

/-!
Rank correlation of the elliptical copulas, `copulae/elliptical/abstract.py`, `gaussian.py`; all
functions act elementwise.
-/

namespace Copulae

open Classical

/-- `np.sqrt` -/
noncomputable def Fl.sqrt : Fl → Fl
  | .nan => .nan
  | .ninf => .nan
  | .pinf => .pinf
  | .fin a => if a < 0 then .nan else .fin (Real.sqrt a)

/-- `np.arcsin` -/
noncomputable def Fl.arcsin : Fl → Fl
  | .fin a => if -1 ≤ a ∧ a ≤ 1 then .fin (Real.arcsin a) else .nan
  | _ => .nan

/-- `np.sin` -/
noncomputable def Fl.sin : Fl → Fl
  | .fin a => .fin (Real.sin a)
  | _ => .nan

/-- elliptical/abstract.py:62-64 `tau`. -/
noncomputable def ellTau (ρ : Fl) : Fl := .fin 2 * Fl.arcsin ρ / .fin Real.pi

/-- elliptical/abstract.py:34-37 `itau`. -/
noncomputable def ellItau (τ : Fl) : Fl := Fl.sin (τ * .fin Real.pi / .fin 2)

/-- elliptical/abstract.py:48-50 `rho`. -/
noncomputable def ellRho (ρ : Fl) : Fl := Fl.arcsin (ρ / .fin 2) * .fin 6 / .fin Real.pi

/-- gaussian.py:55-58 `irho`. -/
noncomputable def ellIrho (r : Fl) : Fl := Fl.sin (r * .fin Real.pi / .fin 6) * .fin 2

/-- elliptical/abstract.py:27-32 `dtau`. -/
noncomputable def ellDtau (x : Fl) : Fl := .fin 2 / (.fin Real.pi * Fl.sqrt (.fin 1 - x * x))

/-- elliptical/abstract.py:20-25 `drho`. -/
noncomputable def ellDrho (x : Fl) : Fl := .fin 6 / (.fin Real.pi * Fl.sqrt (.fin 4 - x * x))

end Copulae
