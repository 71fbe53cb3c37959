/-!
Python exceptions as values.

Every exception class raised by the modelled code gets one constructor; the
message text is not modelled.
-/

namespace Copulae

/-- Exception classes raised by `copulae` (and by NumPy / SciPy / Python on its
behalf) in the modelled code paths. -/
inductive PyErr
  | valueError
  | indexError
  | typeError
  | keyError
  | assertionError
  | runtimeError
  | attributeError
  | zeroDivision
  | notImplemented
  | linAlg            -- numpy.linalg.LinAlgError
  | nonSymmetric      -- copulae/core/exceptions.py: NonSymmetricMatrixError
  | inputData         -- copulae/copula/exceptions.py:6 InputDataError
  | notFitted         -- copulae/copula/exceptions.py:1 NotFittedError
  | gmcParam          -- copulae/mixtures/gmc/exception.py: GMCParamError
  | gmcFitMethod      -- copulae/mixtures/gmc/exception.py: GMCFitMethodError
  | gmcMismatch       -- copulae/mixtures/gmc/exception.py: GMCParamMismatchError
  | gmcNotFitted      -- copulae/mixtures/gmc/exception.py: GMCNotFittedError
  | fitException      -- copulae/mixtures/gmc/estimators/exceptions.py: FitException
  | invalidIndex      -- pandas.errors.InvalidIndexError
  | stoppingCriteria  -- copulae/mixtures/gmc/estimators/exceptions.py: InvalidStoppingCriteria
  deriving DecidableEq, Repr

/-- Python `str.lower()` (ASCII), as a list of characters. -/
def pyLower (s : String) : List Char := s.toList.map Char.toLower

end Copulae
