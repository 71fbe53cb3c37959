import Verif.Model.Univariate

/-!
Binding of arguments to parameters, as Python does it.
-/

namespace Copulae.Spec

/-- In the call of a frozen distribution the parameter number `i` receives the value `v`: the positional
argument if there is one, otherwise the keyword argument of that name, otherwise the default. -/
def IsBound (f : Frozen) (i : ℕ) (v : Fl) : Prop :=
  ∃ n dflt, f.dist.sig[i]? = some (n, dflt) ∧
    (f.args[i]? = some v ∨
      f.args[i]? = none ∧ (pget f.kwds n = some v ∨ pget f.kwds n = none ∧ dflt = some v))

end Copulae.Spec
