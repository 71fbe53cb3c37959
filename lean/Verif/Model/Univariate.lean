import Verif.Model.Marginal

/-!
Model of `copulae/marginal/univariate.py` (`create_univariate`, `get_marginal_class`, `get_marginal_detail`), of
`_process_margins_input` and of `MarginalCopula.fit` in `copulae/marginal/marginal.py`.

A SciPy distribution (`stats.rv_continuous`) is its class name without `_gen` and the signature of its method
`_parse_args`: the parameter names in order with their default values, `none` for the shape parameters, which
have none. The module `scipy.stats` is a function from names to distributions (`none` for names that are
missing or something else). Parameter dictionaries are Python objects that may be shared: a dictionary is a
reference into a heap, its items are in insertion order. Data and fitted values are numbers without NaN;
`rv_continuous.fit` is a function of the column that may raise.
-/

namespace Copulae

/-- A distribution of `scipy.stats`. -/
structure Dist where
  name : String
  sig : List (String × Option Fl)

/-- A dictionary of parameters. -/
abbrev ParamDict := List (String × Fl)

/-- `d[key]`. -/
def pget (d : ParamDict) (key : String) : Option Fl := (d.find? fun e => e.1 = key).map Prod.snd

/-- A frozen distribution: the distribution with positional and keyword arguments. -/
structure Frozen where
  dist : Dist
  args : List Fl
  kwds : ParamDict

/-- The entry `'type'` of the details of a margin. -/
inductive TypeArg
  | str (s : String)
  | dist (D : Dist)
  | frozen
  | other

/-- The details of a margin (`DistDetail`): the entry `'type'`, if any, and a reference to the dictionary under
`'parameters'`, if any. -/
structure Details where
  type : Option TypeArg
  parameters : Option ℕ

/-- The dictionaries of the caller. -/
abbrev Heap := ℕ → ParamDict

/-- Python `str.strip()` on ASCII text. -/
def pyStrip (l : List Char) : List Char :=
  ((l.dropWhile Char.isWhitespace).reverse.dropWhile Char.isWhitespace).reverse

/-- univariate.py:44-49: the short names. -/
def distAlias (l : List Char) : List Char :=
  if l = "normal".toList ∨ l = "gaussian".toList then "norm".toList
  else if l = "student".toList then "t".toList
  else if l = "exp".toList then "expon".toList
  else l

/-- univariate.py:31-56 `get_marginal_class`. -/
def getMarginalClass (stats : List Char → Option Dist) (d : Details) : Except PyErr Dist :=
  match d.type with
  | none => .error .assertionError
  | some .frozen => .error .typeError
  | some (.dist D) => .ok D
  | some (.str s) =>
      match stats (distAlias (pyStrip (pyLower s))) with
      | some D => .ok D
      | none => .error .typeError
  | some .other => .error .typeError

/-- univariate.py:24-26: the missing parameters without default are appended with the value 0.5. -/
noncomputable def fillShapes : List (String × Option Fl) → ParamDict → ParamDict
  | [], p => p
  | (_, some _) :: t, p => fillShapes t p
  | (n, none) :: t, p => fillShapes t (if (pget p n).isSome then p else p ++ [(n, .fin (1 / 2))])

/-- univariate.py:28: `dist(**parameters)`; an unknown keyword is a `TypeError`. -/
def freeze (D : Dist) (p : ParamDict) : Except PyErr Frozen :=
  if ∀ e ∈ p, e.1 ∈ D.sig.map Prod.fst then .ok ⟨D, [], p⟩ else .error .typeError

/-- univariate.py:21-28 `create_univariate`: the dictionary under `'parameters'` is filled in place. -/
noncomputable def createUnivariate (stats : List Char → Option Dist) (h : Heap) (d : Details) :
    Heap × Except PyErr Frozen :=
  match getMarginalClass stats d with
  | .error e => (h, .error e)
  | .ok D =>
      match d.parameters with
      | none => (h, freeze D (fillShapes D.sig []))
      | some r => (Function.update h r (fillShapes D.sig (h r)), freeze D (fillShapes D.sig (h r)))

/-- univariate.py:63-73 `get_marginal_detail`: positional arguments, then keywords, then defaults. `none` stands
for `Parameter.empty`. -/
def detailParams : List (String × Option Fl) → List Fl → ParamDict → List (String × Option Fl)
  | [], _, _ => []
  | (n, _) :: t, v :: args, kw => (n, some v) :: detailParams t args kw
  | (n, dflt) :: t, [], kw => (n, (pget kw n).or dflt) :: detailParams t [] kw

/-- univariate.py:59-78 `get_marginal_detail`: more positional arguments than parameters do not unpack. -/
def getMarginalDetail (f : Frozen) : Except PyErr (String × List (String × Option Fl)) :=
  if f.dist.sig.length < f.args.length then .error .typeError
  else .ok (f.dist.name, detailParams f.dist.sig f.args f.kwds)

/-- One element of a collection of margins. -/
inductive MarginArg
  | str (s : String)
  | dict (d : Details)
  | other

/-- The argument `margins` of `MarginalCopula`. -/
inductive MarginsArg
  | str (s : String)
  | dict (d : Details)
  | coll (l : List MarginArg)
  | other

/-- marginal.py:183-188: one element. -/
noncomputable def createMargin (stats : List Char → Option Dist) (h : Heap) : MarginArg → Heap × Except PyErr Frozen
  | .str s => createUnivariate stats h ⟨some (.str s), none⟩
  | .dict d => createUnivariate stats h d
  | .other => (h, .error .typeError)

/-- marginal.py:181-190: the loop over the elements. -/
noncomputable def createMargins (stats : List Char → Option Dist) (h : Heap) :
    List MarginArg → Heap × Except PyErr (List Frozen)
  | [] => (h, .ok [])
  | a :: t =>
      match createMargin stats h a with
      | (h', .error e) => (h', .error e)
      | (h', .ok f) =>
          match createMargins stats h' t with
          | (h'', .error e) => (h'', .error e)
          | (h'', .ok l) => (h'', .ok (f :: l))

/-- marginal.py:172-192 `_process_margins_input`. -/
noncomputable def processMargins (stats : List Char → Option Dist) (h : Heap) (dim : ℕ) :
    MarginsArg → Heap × Except PyErr (List Frozen)
  | .str s => createMargins stats h (List.replicate dim (.str s))
  | .dict d => createMargins stats h (List.replicate dim (.dict d))
  | .coll l => if l.length ≠ dim then (h, .error .assertionError) else createMargins stats h l
  | .other => (h, .error .typeError)

/-- A `MarginalCopula` over one of the copulas of `Model/Fit.lean`: inner copula with its summary, margins, and
the summary of the marginal copula itself. -/
structure MargObj where
  inner : FitObj
  margins : List Frozen
  smry : Option FitSummary

/-- marginal.py:114-115: the loop over the margins, writing the list in place; the list afterwards and the
exception of `dist.fit`, if any. -/
def refitMargins (distFit : Dist → List ℚ → Except PyErr (List Fl)) (col : ℕ → List ℚ) (k : ℕ) :
    List Frozen → List Frozen × Option PyErr
  | [] => ([], none)
  | f :: t =>
      match distFit f.dist (col k) with
      | .error e => (f :: t, some e)
      | .ok a => (⟨f.dist, a, []⟩ :: (refitMargins distFit col (k + 1) t).1, (refitMargins distFit col (k + 1) t).2)

/-- Column `k` of the data. -/
def column {n d : ℕ} (data : Fin n → Fin d → ℚ) (k : ℕ) : List ℚ :=
  if h : k < d then List.ofFn fun i => data i ⟨k, h⟩ else []

/-- marginal.py:103-120 `fit` on a two-dimensional array. -/
noncomputable def MargObj.fit (env : FitEnv) (opt : List Fl → OptTree)
    (distFit : Dist → List ℚ → Except PyErr (List Fl)) (o : MargObj) {n d : ℕ}
    (data : Fin n → Fin d → ℚ) (x0 : Option ParamArg) (method ties : String) (toPobs : Bool) (scale : Fl) :
    MargObj × Except PyErr Unit :=
  if o.inner.cop.dim ≠ d then (o, .error .inputData)
  else
    match refitMargins distFit (column data) 0 o.margins with
    | (ms, some e) => ({ o with margins := ms }, .error e)
    | (ms, none) =>
        match o.inner.fit env opt data x0 method ties toPobs scale with
        | (i', .error e) => ({ o with margins := ms, inner := i' }, .error e)
        | (i', .ok _) => (⟨i', ms, i'.smry⟩, .ok ())

end Copulae
