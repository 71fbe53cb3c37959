import Verif.Model.MultivariateT
import Verif.Spec.MultivariateT
import Verif.Props.SampleLaw

/-!
C138, C139, C140: the multivariate t distribution with a mean, its samples, and its default arguments.
-/

namespace Copulae

open MeasureTheory ProbabilityTheory Set Spec CopulaMeasure

section pdf
variable {mvnPdf : (d : ℕ) → (Fin d → Fl) → SqMat Fl d → Except PyErr ((Fin d → Fl) → Fl)} {d : ℕ}

theorem mtSpread_self (x : Fin d → Fl) : mtSpread d x = x := by
  funext j
  simp [mtSpread]

theorem mvtParams_cases (M : SqMat Fl d) (df : Option Fl) : mvtParams M df = .error .valueError ∨
    ∃ v, mvtParams M df = .ok v ∧ ((df = none ∧ v = .fin 4.6692) ∨ df = some v) := by
  unfold mvtParams
  split_ifs with h
  · cases df with
    | none => exact .inr ⟨_, rfl, .inl ⟨rfl, rfl⟩⟩
    | some w =>
      by_cases hw : w ≤ .fin 0
      · exact .inl (if_pos hw)
      · exact .inr ⟨w, if_neg hw, .inr rfl⟩
  · exact .inl rfl

/-- The vector a mean argument of `pdf` stands for: none is zero, a number is repeated. -/
inductive Spec.MeanIs {d : ℕ} : MtMean Fl → (Fin d → Fl) → Prop
  | none : MeanIs .none fun _ => .fin 0
  | num (v : Fl) : MeanIs (.num v) fun _ => v
  | vec (m : Fin d → Fl) : MeanIs (.vec m) m

theorem Spec.MeanIs.toVec {mean : MtMean Fl} {m : Fin d → Fl} (h : MeanIs mean m) : mean.toVec d = .ok m := by
  cases h <;> simp [MtMean.toVec]

/-- **C138** `pdf` of an array of rows with a mean is `pdf` of the rows less the mean, if that is so of SciPy's normal
density, which is used above 10000 degrees of freedom: for every covariance matrix and degrees of freedom, with the same exceptions. -/
theorem mtPdf_location (f : EllFns) {m : Fin d → Fl} {M : SqMat Fl d} {mean : MtMean Fl} (hm : MeanIs mean m)
    {df : Option Fl} (hext : (∃ v, df = some v ∧ .fin 10000 < v) →
      mvnPdf d m M = (f.mvnPdf d M).map fun F r => F fun j => r j - m j) {n : ℕ} (x : Fin n → Fin d → Fl) :
    mtPdf mvnPdf (.rows x) mean (.mat M) df = (mvtPdf f (fun i j => x i j - m j) M df).map List.ofFn := by
  unfold mtPdf mvtPdf mtPdfRows
  simp only [MtCov.toMat, MtX.toRows, hm.toVec, bind, Except.bind, pure, Except.pure, mtSpread_self, MtX.isNum, ne_eq,
    not_true_eq_false, false_and, if_false]
  cases h : mvtParams M df with
  | error e => rfl
  | ok v =>
    simp only
    by_cases h1 : Fl.fin 10000 < v
    · have hs : df = some v := by
        rcases mvtParams_cases M df with h' | ⟨w, h', h3⟩
        · rw [h] at h'
          cases h'
        · rw [h] at h'
          cases h'
          rcases h3 with ⟨-, rfl⟩ | h3
          · rw [Fl.fin_lt_fin] at h1
            norm_num at h1
          · exact h3
      simp only [h1, if_true, hext ⟨v, hs, h1⟩]
      cases f.mvnPdf d M <;> rfl
    · simp only [h1, if_false]
      by_cases h2 : (realMat M).det = 0
      · rw [if_pos h2]
        exact if_pos h2
      · rw [if_neg h2]
        refine (if_neg h2).trans ?_
        cases v <;> rfl

/-- The density moves with the law. -/
theorem tShifted_density {S : Matrix (Fin d) (Fin d) ℝ} (hS : S.PosDef) {ν : ℝ} (hν : 0 < ν) (m : Fin d → ℝ) :
    tShifted m S ν = volume.withDensity fun x => ENNReal.ofReal (tPdf S ν fun j => x j - m j) := by
  have hmp : MeasurePreserving (fun x : Fin d → ℝ => x + m) volume volume := measurePreserving_add_right volume m
  have hmm : Measurable fun x : Fin d → ℝ => ENNReal.ofReal (tPdf S ν fun j => x j - m j) := by
    refine ENNReal.measurable_ofReal.comp ((measurable_tPdf S ν).comp ?_)
    fun_prop
  have : (fun x : Fin d → ℝ => fun j => x j + m j) = fun x => x + m := rfl
  rw [tShifted, this, tVector_density hS hν]
  ext A hA
  rw [Measure.map_apply hmp.measurable hA, withDensity_apply _ (hmp.measurable hA), withDensity_apply _ hA,
    ← hmp.setLIntegral_comp_preimage hA hmm]
  refine lintegral_congr fun x => ?_
  congr 3
  funext j
  simp

/-- **C138** With at most 10000 degrees of freedom, and with the documented default, `pdf` returns the density of the t law
moved by the mean. -/
theorem mtPdf_density_partial {S : Matrix (Fin d) (Fin d) ℝ} (hS : S.PosDef) (hd : 1 ≤ d) {ν : ℝ} (hν : 0 < ν)
    (hν' : ν ≤ 10000) {df : Option Fl} (hdf : df = some (.fin ν) ∨ (df = none ∧ ν = 4.6692)) {m : Fin d → ℝ}
    {mean : MtMean Fl} (hm : MeanIs mean fun j => .fin (m j)) :
    ∃ c : (Fin d → ℝ) → ℝ, tShifted m S ν = volume.withDensity (fun x => ENNReal.ofReal (c x)) ∧ (∀ x, 0 < c x) ∧
      ∀ (n : ℕ) (x : Fin n → Fin d → ℝ),
        mtPdf mvnPdf (.rows fun i j => .fin (x i j)) mean (.mat fun i j => .fin (S i j)) df =
          .ok (List.ofFn fun i => .fin (c (x i))) ∧
        mtLogpdf mvnPdf (.rows fun i j => .fin (x i j)) mean (.mat fun i j => .fin (S i j)) df =
          .ok (List.ofFn fun i => .fin (Real.log (c (x i)))) := by
  refine ⟨_, tShifted_density hS hν m, fun x => tPdf_pos hS hν _, fun n x => ?_⟩
  have key : mtPdf mvnPdf (.rows fun i j => .fin (x i j)) mean (.mat fun i j => .fin (S i j)) df =
          .ok (List.ofFn fun i => .fin (tPdf S ν fun j => x i j - m j)) := by
    have h1 : mtPdf mvnPdf (.rows fun i j => .fin (x i j)) mean (.mat fun i j => .fin (S i j)) df =
        mtPdf mvnPdf (.rows fun i j => .fin (x i j)) mean (.mat fun i j => .fin (S i j)) (some (.fin ν)) := by
      rcases hdf with rfl | ⟨rfl, rfl⟩
      · rfl
      · have : ¬ ((4.6692 : ℝ) ≤ 0) := by norm_num
        simp only [mtPdf, mvtParams, Fl.fin_le_fin, this, if_false]
    rw [h1]
    have hn : ¬ Fl.fin 10000 < Fl.fin ν := by rw [Fl.fin_lt_fin]; linarith
    rw [mtPdf_location exactEll hm (M := fun i j => Fl.fin (S i j)) (df := some (.fin ν)) (fun ⟨v, hv, h'⟩ => by
      cases hv
      exact absurd h' hn) (fun i j => .fin (x i j))]
    simp only [Fl.fin_sub_fin, mvtPdf_value hS hd hν hν']
    rfl
  refine ⟨key, ?_⟩
  rw [mtLogpdf, key]
  simp only [bind, Except.bind, pure, Except.pure, List.map_ofFn]
  refine congrArg Except.ok (congrArg List.ofFn (funext fun i => ?_))
  exact Fl.log_pos (tPdf_pos hS hν _)

/-- **C138** A vector is one point in two or more dimensions, and a list of points in one dimension, where the covariance
matrix may be a number. -/
theorem mtPdf_vector (mean : MtMean Fl) (df : Option Fl) :
    (∀ (M : SqMat Fl d) (x : Fin d → Fl), d ≠ 1 →
      mtPdf mvnPdf (.vec x) mean (.mat M) df = mtPdf mvnPdf (.rows fun _ : Fin 1 => x) mean (.mat M) df) ∧
    (∀ (n : ℕ) (x : Fin n → Fl) (s : Fl), mtPdf mvnPdf (.vec x) mean (.num s) df =
      mtPdf mvnPdf (.rows fun i (_ : Fin 1) => x i) mean (.mat fun _ _ : Fin 1 => s) df) ∧
    (∀ (n : ℕ) (x : Fin n → Fl), mtPdf mvnPdf (.vec x) mean .none df =
      mtPdf mvnPdf (.rows fun i (_ : Fin 1) => x i) mean (.mat fun _ _ : Fin 1 => .fin 1) df) := by
  refine ⟨fun M x h => ?_, fun n x s => ?_, fun n x => ?_⟩
  · have e : (MtX.vec x).toRows d = (MtX.rows fun _ : Fin 1 => x).toRows d := if_neg h
    unfold mtPdf
    simp only [MtCov.toMat, e]
    rfl
  · rfl
  · rfl

/-- **C138** is violated by numbers: with at most 10000 degrees of freedom (or the default) `pdf` of a number always
raises, whatever the other arguments; with valid ones it raises `ValueError`. -/
theorem mtPdf_number_violation (v : Fl) (mean : MtMean Fl) (cov : MtCov Fl) (df : Option Fl)
    (hdf : ∀ w, df = some w → ¬ Fl.fin 10000 < w) :
    (∃ e, mtPdf mvnPdf (.num v) mean cov df = .error e) ∧
    ((realMat cov.toMat.2).det ≠ 0 → mtPdf mvnPdf (.num v) mean cov df = .error .valueError) := by
  have key : mtPdf mvnPdf (.num v) mean cov df = .error .valueError ∨
      ((realMat cov.toMat.2).det = 0 ∧ mtPdf mvnPdf (.num v) mean cov df = .error .linAlg) := by
    unfold mtPdf mtPdfRows
    simp only [bind, Except.bind, pure, Except.pure, MtX.toRows, MtX.isNum]
    cases hm : mean.toVec cov.toMat.1 with
    | error e =>
      left
      have : e = .valueError := by
        cases mean <;> simp only [MtMean.toVec] at hm
        · cases hm
        · cases hm
        · split_ifs at hm
          cases hm
          rfl
      rw [this]
    | ok m =>
      simp only
      rcases mvtParams_cases cov.toMat.2 df with hp | ⟨w, hp, h3⟩
      · left
        rw [hp]
      · have hw : ¬ Fl.fin 10000 < w := by
          rcases h3 with ⟨-, rfl⟩ | h3
          · rw [Fl.fin_lt_fin]
            norm_num
          · exact hdf _ h3
        rw [hp]
        simp only [hw, if_false, ne_eq, not_true_eq_false, and_false, false_and]
        by_cases h : (realMat cov.toMat.2).det = 0
        · right
          simp only [h, if_true, and_self]
        · left
          simp only [h, if_false, if_true]
  refine ⟨?_, fun h => ?_⟩
  · rcases key with h | h
    · exact ⟨_, h⟩
    · exact ⟨_, h.2⟩
  · rcases key with h' | h'
    · exact h'
    · exact absurd h'.1 h

/-- **C138** Rows of the wrong length: `pdf` raises, except that a row of one number stands for a row of equal numbers. -/
theorem mtPdf_columns (f : (d : ℕ) → (Fin d → Fl) → SqMat Fl d → Except PyErr ((Fin d → Fl) → Fl)) (mean : MtMean Fl)
    (M : SqMat Fl d) (df : Option Fl) {n k : ℕ} (x : Fin n → Fin k → Fl) (hk : k ≠ d) :
    (k ≠ 1 → ∀ r, mtPdf f (.rows x) mean (.mat M) df ≠ .ok r) ∧
    (∀ h : k = 1, mtPdf f (.rows x) mean (.mat M) df =
      mtPdf f (.rows fun i (_ : Fin d) => x i (Fin.cast h.symm 0)) mean (.mat M) df) := by
  refine ⟨fun h1 r => ?_, fun h => ?_⟩
  · unfold mtPdf
    simp only [bind, Except.bind, MtCov.toMat, MtX.toRows, MtX.isNum]
    cases mean.toVec d with
    | error e => simp
    | ok m =>
      simp only
      cases mvtParams M df with
      | error e => simp
      | ok w =>
        simp only [mtPdfRows, ne_eq, hk, h1, not_false_eq_true, and_self, true_and, if_true]
        split_ifs
        all_goals cases f d m M <;> simp [bind, Except.bind]
  · subst h
    unfold mtPdf mtPdfRows
    simp only [MtCov.toMat, MtX.toRows, MtX.isNum, if_false, ne_eq, not_true_eq_false, and_false, false_and]
    have e : ∀ i, mtSpread d (x i) = mtSpread d fun _ : Fin d => x i (Fin.cast rfl 0) := fun i => by
      funext j
      simp [mtSpread, hk]
    simp only [e]
    rfl

/-! Concrete cases. -/

example (mvnPdf : (d : ℕ) → (Fin d → Fl) → SqMat Fl d → Except PyErr ((Fin d → Fl) → Fl)) :=
  mtPdf_density_partial (mvnPdf := mvnPdf) posDef_half (by norm_num) (ν := 4.6692) (by norm_num) (by norm_num) (df := none)
    (.inr ⟨rfl, rfl⟩) (mean := .vec fun j => .fin (![1, -2] j)) (m := ![1, -2]) (.vec _)

/-- A density that SciPy could compute, with its mean. -/
example := mtPdf_location (d := 2)
  (mvnPdf := fun d m M => (exactEll.mvnPdf d M).map fun F r => F fun j => r j - m j) exactEll (mean := .num (.fin 3)) (.num _)
  (M := fun i j => .fin ((!![1, 1 / 2; 1 / 2, 1] : Matrix (Fin 2) (Fin 2) ℝ) i j)) (df := some (.fin 20000)) (fun _ => rfl)
  ![![.fin 1, .fin 2], ![.fin 0, .fin 5]]

example (mvnPdf : (d : ℕ) → (Fin d → Fl) → SqMat Fl d → Except PyErr ((Fin d → Fl) → Fl)) :=
  (mtPdf_vector (mvnPdf := mvnPdf) (d := 3) (.num (.fin 1)) (some (.fin 5))).1 (fun i j => .fin (if i = j then 2 else 1))
    ![.fin 0, .fin 1, .fin 2] (by norm_num)

/-- The density of a number with all other arguments left at their defaults. -/
example (mvnPdf : (d : ℕ) → (Fin d → Fl) → SqMat Fl d → Except PyErr ((Fin d → Fl) → Fl)) :
    mtPdf mvnPdf (.num (.fin 0)) .none (.num (.fin 1)) none = .error .valueError :=
  (mtPdf_number_violation _ _ _ _ (fun _ h => by cases h)).2 (by
    have : realMat (MtCov.num (Fl.fin 1)).toMat.2 = 1 := by
      ext i j
      have : i = j := Subsingleton.elim (α := Fin 1) i j
      subst this
      exact (Matrix.one_apply_eq i).symm
    rw [this]
    simp)

/-- A single column in two dimensions is taken for points on the diagonal. -/
example (mvnPdf : (d : ℕ) → (Fin d → Fl) → SqMat Fl d → Except PyErr ((Fin d → Fl) → Fl)) (M : SqMat Fl 2) :=
  (mtPdf_columns mvnPdf .none M (some (.fin 3)) (fun (i : Fin 4) (_ : Fin 1) => .fin i.val) (by norm_num)).2 rfl

example (mvnPdf : (d : ℕ) → (Fin d → Fl) → SqMat Fl d → Except PyErr ((Fin d → Fl) → Fl)) (M : SqMat Fl 2) :=
  (mtPdf_columns mvnPdf .none M (some (.fin 3)) (fun (i : Fin 4) (_ : Fin 3) => .fin i.val) (by norm_num)).1 (by norm_num)

example := tShifted_density posDef_half (ν := 5) (by norm_num) ![1, -2]

end pdf

section rvs

/-- A mean argument and the vector it stands for: none is zero, a number is repeated. -/
inductive MtMean.Is {d : ℕ} : MtMean ℝ → (Fin d → ℝ) → Prop
  | none : Is .none fun _ => 0
  | num (v : ℝ) : Is (.num v) fun _ => v
  | vec (m : Fin d → ℝ) : Is (.vec m) m

/-- The documented law for a mean and a type. SciPy takes no number for the mean in two or more dimensions. -/
inductive MtLaw {d : ℕ} (S : Matrix (Fin d) (Fin d) ℝ) (ν : ℝ) : MtMean ℝ → String → Measure (Fin d → ℝ) → Prop
  | shifted {mean m type} (h : pyLower type = pyLower "shifted") (hm : MtMean.Is mean m) :
      MtLaw S ν mean type (tShifted m S ν)
  | kshirsagar {mean m type} (h : pyLower type = pyLower "kshirsagar") (hm : MtMean.Is mean m)
      (hd : d = 1 ∨ ∀ v, mean ≠ .num v) : MtLaw S ν mean type (tNoncentral m S ν)

theorem MtMean.Is.entry {d : ℕ} {mean : MtMean ℝ} {m : Fin d → ℝ} (h : MtMean.Is mean m) (j : Fin d) :
    mean.entry j = m j := by
  cases h with
  | none => rfl
  | num v => rfl
  | vec m => simp [MtMean.entry]

theorem MtMean.Is.shape {d : ℕ} {mean : MtMean ℝ} {m : Fin d → ℝ} (h : MtMean.Is mean m) :
    mean.shape = [] ∨ mean.shape = [d] := by
  cases h with
  | none => exact .inl rfl
  | num v => exact .inl rfl
  | vec m => exact .inr rfl

theorem MtMean.Is.args {d : ℕ} {mean : MtMean ℝ} {m : Fin d → ℝ} (h : MtMean.Is mean m)
    (hd : d = 1 ∨ ∀ v, mean ≠ .num v) (M : Fin d → Fin d → ℝ) : mvnArgs mean (.mat M) = .ok ⟨d, m, M⟩ := by
  cases h with
  | none => rfl
  | num v =>
    rcases hd with rfl | hd
    · rfl
    · exact absurd rfl (hd v)
  | vec m => simp [mvnArgs]

theorem inPlaceOk_nil (a : List ℕ) : inPlaceOk a [] = true := by simp [inPlaceOk]

theorem inPlaceOk_last (a : List ℕ) (d : ℕ) : inPlaceOk (a ++ [d]) [d] = true := by simp [inPlaceOk]

theorem inPlaceOk_self (l : List ℕ) (d : ℕ) : inPlaceOk (l ++ [d]) (l ++ [1]) = true := by
  have : ∀ k : List ℕ, (List.zip k k).all (fun p => p.2 == p.1 || p.2 == 1) = true := fun k => by
    induction k with
    | nil => rfl
    | cons a k ih => simpa using ih
  simp [inPlaceOk, this]

theorem kshirsagar_ne {type : String} (h : pyLower type = pyLower "kshirsagar") : pyLower type ≠ pyLower "shifted" := by
  rw [h]
  decide

variable {G : Gen} [MeasurableSpace G.S] {P : Measure G.S}

theorem tShifted_eq {d : ℕ} (S : Matrix (Fin d) (Fin d) ℝ) {ν : ℝ} (hν : 0 < ν) (m : Fin d → ℝ) :
    tShifted m S ν = ((gammaMeasure (ν / 2) (1 / 2)).prod (normalLaw (fun _ => 0) S)).map
      (fun p j => p.2 j / √(p.1 / ν) + m j) := by
  have hchi := chi_prob hν
  have hsc : Measurable (fun p : (Fin d → ℝ) × ℝ => tScale ν p.2 • p.1) := measurable_scale (measurable_tScale ν)
  have h1 : Measurable fun (x : Fin d → ℝ) j => x j + m j := by fun_prop
  have h2 : Measurable fun (p : ℝ × (Fin d → ℝ)) j => p.2 j / √(p.1 / ν) + m j := by fun_prop
  rw [normalLaw_zero, tShifted, tVector_eq S hν, scaleMix, Measure.map_map h1 hsc, ← Measure.prod_swap,
    Measure.map_map (h1.comp hsc) measurable_swap]
  congr 1
  funext p j
  simp [tScale, div_eq_inv_mul]

theorem tNoncentral_eq {d : ℕ} (S : Matrix (Fin d) (Fin d) ℝ) {ν : ℝ} (hν : 0 < ν) (m : Fin d → ℝ) :
    tNoncentral m S ν = ((gammaMeasure (ν / 2) (1 / 2)).prod (normalLaw m S)).map (fun p j => p.2 j / √(p.1 / ν)) := by
  have hchi := chi_prob hν
  have h2 : Measurable fun (p : (Fin d → ℝ) × ℝ) j => p.1 j / √(p.2 / ν) := by fun_prop
  rw [tNoncentral, ← Measure.prod_swap, Measure.map_map h2 measurable_swap]
  rfl

/-- In the central case both laws coincide. -/
theorem tCentral_eq {d : ℕ} (S : Matrix (Fin d) (Fin d) ℝ) {ν : ℝ} (hν : 0 < ν) :
    tNoncentral (fun _ => 0) S ν = tVector S ν ∧ tShifted (fun _ => 0) S ν = tVector S ν := by
  have h : tShifted (fun _ => 0) S ν = tVector S ν := by
    rw [tShifted]
    simp
  refine ⟨?_, h⟩
  rw [← h, tShifted_eq S hν, tNoncentral_eq S hν]
  simp

/-- The part of `rvs` that draws, when the shapes fit. -/
theorem mtRvsT_draws (h : IsIdeal G P) {d : ℕ} {S : Matrix (Fin d) (Fin d) ℝ} (hS : S.PosSemidef) {ν : ℝ} (hν : 0 < ν)
    {mean : MtMean ℝ} {type : String} {L : Measure (Fin d → ℝ)} (hL : MtLaw S ν mean type L) {N : ℕ} {dShape rs : List ℕ}
    {tuple : Option (List ℕ)} (ht : ¬ (tuple.isSome ∧ N = 0))
    (hrs : mtShape N d d dShape tuple = .ok rs)
    (hm : inPlaceOk rs [d] = true) :
    Draws P (mtRvsT mean (.mat S) ν N dShape tuple type none : Rnd G MtOut)
      (fun x : Fin N → Fin d → ℝ => if h : N = 1 ∧ d = 1 then .num (x ⟨0, by omega⟩ ⟨0, by omega⟩) else .arr rs x)
      (iid N L) := by
  have := h.prob
  have hchi := chi_prob hν
  cases hL with
  | @shifted m _ hty hme =>
    have hf : Measurable fun (p : ℝ × (Fin d → ℝ)) j => p.2 j / √(p.1 / ν) + m j := by fun_prop
    have hdr := ((h.chisq ν hν N).seq (h.mvn N d (fun _ => 0) S hS)).map_pure
      (fun p => if h : N = 1 ∧ d = 1 then MtOut.num (p.2 ⟨0, by omega⟩ ⟨0, by omega⟩ / √(p.1 ⟨0, by omega⟩ / ν) + m ⟨0, by omega⟩)
        else .arr rs fun i j => p.2 i j / √(p.1 i / ν) + m j)
      (g := fun p i j => p.2 i j / √(p.1 i / ν) + m j)
      (e' := fun x : Fin N → Fin d → ℝ => if h : N = 1 ∧ d = 1 then .num (x ⟨0, by omega⟩ ⟨0, by omega⟩) else .arr rs x)
      (measurable_pi_lambda _ fun i => by
        have h2 : Measurable fun p : (Fin N → ℝ) × (Fin N → Fin d → ℝ) => (p.1 i, p.2 i) := by fun_prop
        exact hf.comp h2) (Filter.Eventually.of_forall fun r => rfl)
    have hz := iid_zip (n := N) (L := gammaMeasure (ν / 2) (1 / 2)) (M := normalLaw (fun _ => 0) S) hf
    rw [hz, ← tShifted_eq S hν] at hdr
    refine hdr.congr fun s => ?_
    unfold mtRvsT
    have hsh : inPlaceOk rs mean.shape = true := by
      rcases hme.shape with e | e <;> rw [e]
      · exact inPlaceOk_nil _
      · exact hm
    simp only [exec_bind, exec_seed_none, exec_draw, exec_ofExcept, ht, if_false, hty, true_or, not_true_eq_false, if_true,
      mvnArgs, mvnRvs, MtCov.sized, hrs, hsh, and_false, hme.entry]
    have he : ∀ h : 0 < d, mean.entry 0 = m ⟨0, h⟩ := fun h => hme.entry ⟨0, h⟩
    by_cases hc : N = 1 ∧ d = 1
    · simp only [dif_pos hc, he (by omega)]
      rfl
    · simp only [dif_neg hc]
      rfl
  | @kshirsagar m _ hty hme hd =>
    have hf : Measurable fun (p : ℝ × (Fin d → ℝ)) j => p.2 j / √(p.1 / ν) := by fun_prop
    have hdr := ((h.chisq ν hν N).seq (h.mvn N d m S hS)).map_pure
      (fun p => if h : N = 1 ∧ d = 1 then MtOut.num (p.2 ⟨0, by omega⟩ ⟨0, by omega⟩ / √(p.1 ⟨0, by omega⟩ / ν))
        else .arr rs fun i j => p.2 i j / √(p.1 i / ν))
      (g := fun p i j => p.2 i j / √(p.1 i / ν))
      (e' := fun x : Fin N → Fin d → ℝ => if h : N = 1 ∧ d = 1 then .num (x ⟨0, by omega⟩ ⟨0, by omega⟩) else .arr rs x)
      (measurable_pi_lambda _ fun i => by
        have h2 : Measurable fun p : (Fin N → ℝ) × (Fin N → Fin d → ℝ) => (p.1 i, p.2 i) := by fun_prop
        exact hf.comp h2) (Filter.Eventually.of_forall fun r => rfl)
    have hz := iid_zip (n := N) (L := gammaMeasure (ν / 2) (1 / 2)) (M := normalLaw m S) hf
    rw [hz, ← tNoncentral_eq S hν] at hdr
    refine hdr.congr fun s => ?_
    unfold mtRvsT
    have hns := kshirsagar_ne hty
    rw [hty] at hns
    have ha : mvnArgs mean (MtCov.mat S) = .ok ⟨d, m, S⟩ := hme.args hd S
    simp only [exec_bind, exec_seed_none, exec_draw, exec_ofExcept, ht, if_false, hty, hns, or_true, not_true_eq_false,
      ha, mvnRvs, MtCov.sized, hrs, false_and, add_zero]
    rfl

/-- **C139** For a size `n` from one and two or more dimensions, `rvs` returns `n` independent rows with the documented law,
as an array with the shape `(n, d)`, or `(d,)` if `n` is one. -/
theorem mtRvs_draws_partial (h : IsIdeal G P) {d : ℕ} (hd : 2 ≤ d) {S : Matrix (Fin d) (Fin d) ℝ} (hS : S.PosSemidef) {ν : ℝ}
    (hν : 0 < ν) (hν' : ν ≤ 10000) {mean : MtMean ℝ} {type : String} {L : Measure (Fin d → ℝ)} (hL : MtLaw S ν mean type L)
    {n : ℕ} (hn : 1 ≤ n) :
    Draws P (mtRvs mean (.mat S) (some ν) (.int n) type none : Rnd G MtOut)
      (fun x : Fin n → Fin d → ℝ => .arr (if n = 1 then [d] else [n, d]) x) (iid n L) := by
  have e : (mtRvs mean (.mat S) (some ν) (.int n) type none : Rnd G MtOut) =
      mtRvsT mean (.mat S) ν n (if 1 < n then [n, 1] else [n]) none type none := by
    unfold mtRvs
    simp only [not_le.mpr hν, not_lt.mpr hν', if_false, not_lt.mpr (Int.natCast_nonneg n), Int.toNat_natCast,
      Nat.one_lt_cast]
  have hd1 : ¬ d = 1 := by omega
  have key := mtRvsT_draws h hS hν hL (N := n) (dShape := if 1 < n then [n, 1] else [n])
    (rs := if n = 1 then [d] else [n, d]) (tuple := none) (by simp) (by
      by_cases h1 : n = 1
      · simp [mtShape, npSqueeze, h1, hd1, inPlaceOk, bind, Except.bind]
      · have : 1 < n := by omega
        simp [mtShape, npSqueeze, h1, hd1, inPlaceOk, bind, Except.bind, this])
    (by split_ifs <;> simp [inPlaceOk])
  simp only [hd1, and_false, dif_neg, not_false_eq_true] at key
  rw [e]
  exact key

/-- **C139** For a tuple of sizes `rvs` returns independent rows with the documented law, as an array whose shape is the
tuple followed by the dimension. -/
theorem mtRvs_tuple_draws_partial (h : IsIdeal G P) {d : ℕ} {S : Matrix (Fin d) (Fin d) ℝ} (hS : S.PosSemidef) {ν : ℝ}
    (hν : 0 < ν) (hν' : ν ≤ 10000) {mean : MtMean ℝ} {type : String} {L : Measure (Fin d → ℝ)} (hL : MtLaw S ν mean type L)
    {l : List ℕ} (hl : l ≠ []) (hp : 0 < l.prod) (h1 : ¬ (l.prod = 1 ∧ d = 1)) :
    Draws P (mtRvs mean (.mat S) (some ν) (.tuple l) type none : Rnd G MtOut)
      (fun x : Fin l.prod → Fin d → ℝ => .arr (l ++ [d]) x) (iid l.prod L) := by
  have e : (mtRvs mean (.mat S) (some ν) (.tuple l) type none : Rnd G MtOut) =
      mtRvsT mean (.mat S) ν l.prod (l ++ [1]) (some l) type none := by
    obtain ⟨a, k, rfl⟩ := List.exists_cons_of_ne_nil hl
    unfold mtRvs
    simp only [not_le.mpr hν, not_lt.mpr hν', if_false]
  have key := mtRvsT_draws h hS hν hL (N := l.prod) (dShape := l ++ [1]) (rs := l ++ [d]) (tuple := some l)
    (fun h => hp.ne' h.2) (by simp [mtShape, inPlaceOk_self, bind, Except.bind]) (inPlaceOk_last l d)
  simp only [h1, dif_neg, not_false_eq_true] at key
  rw [e]
  exact key

/-- **C139** A single value in one dimension is returned as a number. -/
theorem mtRvs_number_draws_partial (h : IsIdeal G P) {S : Matrix (Fin 1) (Fin 1) ℝ} (hS : S.PosSemidef) {ν : ℝ} (hν : 0 < ν)
    (hν' : ν ≤ 10000) {mean : MtMean ℝ} {type : String} {L : Measure (Fin 1 → ℝ)} (hL : MtLaw S ν mean type L) :
    Draws P (mtRvs mean (.mat S) (some ν) (.int 1) type none : Rnd G MtOut)
      (fun x : Fin 1 → Fin 1 → ℝ => .num (x 0 0)) (iid 1 L) := by
  have e : (mtRvs mean (.mat S) (some ν) (.int 1) type none : Rnd G MtOut) =
      mtRvsT mean (.mat S) ν 1 [1] none type none := by
    unfold mtRvs
    simp only [not_le.mpr hν, not_lt.mpr hν', if_false, show ¬ (1 : ℤ) < 0 by norm_num, show ¬ (1 : ℤ) < 1 by norm_num,
      show (1 : ℤ).toNat = 1 from rfl]
  have key := mtRvsT_draws h hS hν hL (N := 1) (dShape := [1]) (rs := [1]) (tuple := none) (by simp)
    (by simp [mtShape, npSqueeze, bind, Except.bind]) (by simp [inPlaceOk])
  rw [e]
  exact key

/-- **C139** In the central case both types draw from the t law. -/
theorem mtLaw_central {d : ℕ} (S : Matrix (Fin d) (Fin d) ℝ) {ν : ℝ} (hν : 0 < ν) {type : String} {L : Measure (Fin d → ℝ)}
    (hL : MtLaw S ν .none type L) : L = tVector S ν := by
  cases hL with
  | shifted h hm =>
    cases hm
    exact (tCentral_eq S hν).2
  | kshirsagar h hm hd =>
    cases hm
    exact (tCentral_eq S hν).1

/-- **C139** With a seed the result depends on the arguments only, not on the state of the global generator. -/
theorem mtRvs_seeded {G : Gen} (mean : MtMean ℝ) (cov : MtCov ℝ) (df : Option ℝ) (size : MtSize) (type : String) (seed : ℤ)
    (σ σ' : G.S) : ((mtRvs mean cov df size type (some seed) : Rnd G MtOut).exec σ).1 =
      ((mtRvs mean cov df size type (some seed) : Rnd G MtOut).exec σ').1 := by
  have hT : ∀ (df : ℝ) N ds t, ((mtRvsT mean cov df N ds t type (some seed) : Rnd G MtOut).exec σ).1 =
      ((mtRvsT mean cov df N ds t type (some seed) : Rnd G MtOut).exec σ').1 := fun df N ds t => by
    unfold mtRvsT
    cases hs : checkSeed G seed with
    | error e => simp only [exec_bind, exec_seed_error hs]
    | ok τ => simp only [exec_bind, exec_seed_ok hs]
  have hN : ∀ (N d : ℕ) (m : Fin d → ℝ) (M : Fin d → Fin d → ℝ),
      ∃ r, ∀ τ : G.S, (mvnRvs N d m M (some seed) : Rnd G _).exec τ = (r, τ) := fun N d m M => by
    unfold mvnRvs
    cases hs : checkSeed G seed with
    | error e => exact ⟨.error e, fun τ => by simp only [hs]; rfl⟩
    | ok τ' => exact ⟨.ok _, fun τ => by simp only [hs]; rfl⟩
  have hneg : (((do
        seedGlobal (some seed)
        throw .valueError) : Rnd G MtOut).exec σ).1 = (((do
        seedGlobal (some seed)
        throw .valueError) : Rnd G MtOut).exec σ').1 := by
    cases hs : checkSeed G seed with
    | error e => simp only [exec_bind, exec_seed_error hs]
    | ok τ => simp only [exec_bind, exec_seed_ok hs]
  unfold mtRvs
  cases size with
  | other => rfl
  | int n =>
    cases df with
    | none => rfl
    | some df =>
      simp only
      split_ifs
      · rfl
      · simp only [exec_bind, exec_ofExcept]
        cases mvnArgs mean cov with
        | error e => rfl
        | ok a => rfl
      · simp only [exec_bind, exec_ofExcept]
        cases mvnArgs mean cov with
        | error e => rfl
        | ok a =>
          obtain ⟨r, hr⟩ := hN n.toNat a.1 a.2.1 a.2.2
          simp only [hr]
          cases r <;> rfl
      · exact hneg
      · exact hT _ _ _ _
      · exact hT _ _ _ _
  | tuple l =>
    cases l with
    | nil => rfl
    | cons b l =>
      cases df with
      | none => rfl
      | some df =>
        simp only
        split_ifs
        · rfl
        · simp only [exec_bind, exec_ofExcept]
          cases mvnArgs mean cov with
          | error e => rfl
          | ok a =>
          obtain ⟨r, hr⟩ := hN (b :: l).prod a.1 a.2.1 a.2.2
          simp only [hr]
          cases r <;> rfl
        · exact hT _ _ _ _

/-- **C140** is violated: `df` may not be left out of `rvs`, although a default is documented. -/
theorem mtRvs_default_df_violation {G : Gen} (mean : MtMean ℝ) (cov : MtCov ℝ) (size : MtSize) (type : String)
    (seed : Option ℤ) (σ : G.S) :
    (mtRvs mean cov none size type seed : Rnd G MtOut).exec σ = (.error .valueError, σ) := by
  unfold mtRvs
  cases size with
  | other => rfl
  | int n => rfl
  | tuple l => cases l <;> rfl

/-- **C140** is violated: with the default type, a covariance matrix given as a number, or left at its default, always
raises with at most 10000 degrees of freedom, although `pdf` accepts it. -/
theorem mtRvs_default_cov_violation {G : Gen} (mean : MtMean ℝ) {cov : MtCov ℝ} (hc : cov = .none ∨ ∃ c, cov = .num c)
    {ν : ℝ} (hν' : ν ≤ 10000) (size : MtSize) (seed : Option ℤ) (σ : G.S) :
    ∃ e, ((mtRvs mean cov (some ν) size "shifted" seed : Rnd G MtOut).exec σ).1 = .error e ∧
      (0 < ν → seed = none → (∃ n : ℕ, size = .int n) → e = .typeError) := by
  have hT : ∀ N ds t, (∃ e, ((mtRvsT mean cov ν N ds t "shifted" seed : Rnd G MtOut).exec σ).1 = .error e) ∧
      (seed = none → t = none →
        ((mtRvsT mean cov ν N ds t "shifted" seed : Rnd G MtOut).exec σ).1 = .error .typeError) := fun N ds t => by
    unfold mtRvsT
    rcases hc with rfl | ⟨c, rfl⟩ <;>
    · simp only [exec_bind]
      cases hsd : (seedGlobal seed : Rnd G Unit).exec σ with
      | mk r τ =>
        cases r with
        | error e =>
          refine ⟨⟨e, rfl⟩, ?_⟩
          rintro rfl
          rw [exec_seed_none] at hsd
          cases hsd
        | ok u =>
          simp only [exec_draw]
          by_cases hz : t.isSome = true ∧ N = 0
          · simp only [hz, and_self, if_true]
            refine ⟨⟨_, rfl⟩, ?_⟩
            rintro - rfl
            simp at hz
          · simp only [hz, if_false, true_or, not_true_eq_false, if_true]
            exact ⟨⟨_, rfl⟩, fun _ _ => rfl⟩
  unfold mtRvs
  cases size with
  | other => exact ⟨_, rfl, fun _ _ ⟨n, hn⟩ => by cases hn⟩
  | int n =>
    simp only [not_lt.mpr hν', if_false]
    split_ifs with h1 h2
    · exact ⟨_, rfl, fun h => absurd h1 (not_le.mpr h)⟩
    · cases hsd : (seedGlobal seed : Rnd G Unit).exec σ with
      | mk r τ =>
        cases r with
        | error e =>
          refine ⟨e, by simp only [exec_bind, hsd], fun _ _ ⟨k, hk⟩ => ?_⟩
          cases hk
          omega
        | ok u =>
          refine ⟨.valueError, by simp only [exec_bind, hsd]; rfl, fun _ _ ⟨k, hk⟩ => ?_⟩
          cases hk
          omega
    · obtain ⟨e, he⟩ := (hT n.toNat [n.toNat, 1] none).1
      exact ⟨e, he, fun _ hs _ => by
        have := (hT n.toNat [n.toNat, 1] none).2 hs rfl
        rw [he] at this
        cases this
        rfl⟩
    · obtain ⟨e, he⟩ := (hT n.toNat [n.toNat] none).1
      exact ⟨e, he, fun _ hs _ => by
        have := (hT n.toNat [n.toNat] none).2 hs rfl
        rw [he] at this
        cases this
        rfl⟩
  | tuple l =>
    cases l with
    | nil => exact ⟨_, rfl, fun _ _ ⟨n, hn⟩ => by cases hn⟩
    | cons a l =>
      simp only [not_lt.mpr hν', if_false]
      split_ifs with h1
      · exact ⟨_, rfl, fun h => absurd h1 (not_le.mpr h)⟩
      · obtain ⟨e, he⟩ := (hT (a :: l).prod (a :: l ++ [1]) (some (a :: l))).1
        exact ⟨e, he, fun _ _ ⟨n, hn⟩ => by cases hn⟩

/-- **C140** is violated: in one dimension two or more values always raise `ValueError` with at most 10000 degrees of
freedom, for both types. -/
theorem mtRvs_one_dim_violation {G : Gen} (mean : MtMean ℝ) (M : Fin 1 → Fin 1 → ℝ) {ν : ℝ} (hν' : ν ≤ 10000) {n : ℕ}
    (hn : 2 ≤ n) (type : String) (seed : Option ℤ) (σ : G.S) :
    ((mtRvs mean (.mat M) (some ν) (.int n) type seed : Rnd G MtOut).exec σ).1 = .error .valueError := by
  have hsh : mtShape n 1 1 [n, 1] none = .error .valueError := by
    have : ¬ n = 1 := by omega
    simp [mtShape, npSqueeze, this, inPlaceOk, bind, Except.bind]
  have hseed : ∀ e τ, (seedGlobal seed : Rnd G Unit).exec σ = (.error e, τ) → e = .valueError := fun e τ h => by
    cases seed with
    | none => cases h
    | some s =>
      cases hs : checkSeed G s with
      | ok τ' =>
        rw [exec_seed_ok hs] at h
        cases h
      | error e' =>
        rw [exec_seed_error hs] at h
        cases h
        unfold checkSeed at hs
        split_ifs at hs
        cases hs
        rfl
  have hrvs : ∀ (m : Fin 1 → ℝ) (τ : G.S), (∃ e τ', (mvnRvs n 1 m M seed : Rnd G _).exec τ = (.error e, τ') ∧ e = .valueError) ∨
      ∃ z τ', (mvnRvs n 1 m M seed : Rnd G _).exec τ = (.ok z, τ') := fun m τ => by
    cases seed with
    | none => exact .inr ⟨_, _, rfl⟩
    | some s =>
      cases hs : checkSeed G s with
      | ok τ' => exact .inr ⟨_, _, by simp only [mvnRvs, hs]; rfl⟩
      | error e' =>
        refine .inl ⟨e', τ, by simp only [mvnRvs, hs]; rfl, ?_⟩
        unfold checkSeed at hs
        split_ifs at hs
        cases hs
        rfl
  have hargs : mvnArgs mean (.mat M) = .error .valueError ∨ ∃ m, mvnArgs mean (.mat M) = .ok ⟨1, m, M⟩ := by
    cases mean with
    | none => exact .inr ⟨_, rfl⟩
    | num v => exact .inr ⟨_, rfl⟩
    | @vec k v =>
      by_cases hk : k = 1
      · exact .inr ⟨_, dif_pos hk⟩
      · exact .inl (dif_neg hk)
  by_cases h0 : ν ≤ 0
  · unfold mtRvs
    simp only [h0, if_true]
    rfl
  have e : (mtRvs mean (.mat M) (some ν) (.int n) type seed : Rnd G MtOut) =
      mtRvsT mean (.mat M) ν n [n, 1] none type seed := by
    unfold mtRvs
    simp only [h0, not_lt.mpr hν', if_false, not_lt.mpr (Int.natCast_nonneg n), Int.toNat_natCast, Nat.one_lt_cast,
      show 1 < n by omega, if_true]
  rw [e]
  unfold mtRvsT
  simp only [exec_bind]
  cases hsd : (seedGlobal seed : Rnd G Unit).exec σ with
  | mk r τ =>
    cases r with
    | error e =>
      rw [hseed e τ hsd]
    | ok u =>
      simp only [exec_draw, Option.isSome_none, Bool.false_eq_true, false_and, if_false]
      by_cases ht : pyLower type = pyLower "shifted" ∨ pyLower type = pyLower "kshirsagar"
      · by_cases hs : pyLower type = pyLower "shifted"
        · simp only [hs, true_or, not_true_eq_false, if_false, if_true, mvnArgs, exec_bind, exec_ofExcept]
          rcases hrvs (fun _ => 0) (G.chisq ν n τ).2 with ⟨e, τ', h1, rfl⟩ | ⟨z, τ', h1⟩
          · simp only [h1]
          · simp only [h1, MtCov.sized, hsh]
        · have hns : ¬ pyLower "kshirsagar" = pyLower "shifted" := by decide
          simp only [ht.resolve_left hs, hns, or_true, not_true_eq_false, if_false, exec_bind, exec_ofExcept]
          rcases hargs with h2 | ⟨m, h2⟩
          · simp only [h2]
          · simp only [h2]
            rcases hrvs m (G.chisq ν n τ).2 with ⟨e, τ', h1, rfl⟩ | ⟨z, τ', h1⟩
            · simp only [h1]
            · simp only [h1, MtCov.sized, hsh]
      · simp only [ht, not_false_eq_true, if_true]
        rfl

/-- **C140** Other errors with at most 10000 degrees of freedom, without a seed: an unknown type, sizes that are not integers,
negative sizes, a size of zero in two or more dimensions, and degrees of freedom that are not positive, raise `ValueError`;
and so does a number for the mean in two or more dimensions with the type `kshirsagar`. -/
theorem mtRvs_reject {G : Gen} (mean : MtMean ℝ) {d : ℕ} (M : Fin d → Fin d → ℝ) {ν : ℝ} (hν : 0 < ν) (hν' : ν ≤ 10000)
    (σ : G.S) :
    (∀ type size, pyLower type ≠ pyLower "shifted" → pyLower type ≠ pyLower "kshirsagar" →
      ((mtRvs mean (.mat M) (some ν) size type none : Rnd G MtOut).exec σ).1 = .error .valueError) ∧
    (∀ type df, ((mtRvs mean (.mat M) df .other type none : Rnd G MtOut).exec σ).1 = .error .valueError ∧
      ((mtRvs mean (.mat M) df (.tuple []) type none : Rnd G MtOut).exec σ).1 = .error .valueError) ∧
    (∀ type (n : ℤ), n < 0 → ((mtRvs mean (.mat M) (some ν) (.int n) type none : Rnd G MtOut).exec σ).1 = .error .valueError) ∧
    (2 ≤ d → ∀ type m, MtMean.Is (d := d) mean m →
      ((mtRvs mean (.mat M) (some ν) (.int 0) type none : Rnd G MtOut).exec σ).1 = .error .valueError) ∧
    (∀ type size (w : ℝ), w ≤ 0 →
      ((mtRvs mean (.mat M) (some w) size type none : Rnd G MtOut).exec σ).1 = .error .valueError) ∧
    (2 ≤ d → ∀ v (n : ℕ), 1 ≤ n →
      ((mtRvs (.num v) (.mat M) (some ν) (.int n) "kshirsagar" none : Rnd G MtOut).exec σ).1 = .error .valueError) := by
  have hle : ¬ ν ≤ 0 := not_le.mpr hν
  have hlt : ¬ 10000 < ν := not_lt.mpr hν'
  have hT : ∀ type, pyLower type ≠ pyLower "shifted" → pyLower type ≠ pyLower "kshirsagar" → ∀ N ds t,
      ((mtRvsT mean (.mat M) ν N ds t type none : Rnd G MtOut).exec σ).1 = .error .valueError := fun type h1 h2 N ds t => by
    unfold mtRvsT
    simp only [exec_bind, exec_seed_none, exec_draw, h1, h2, or_self, not_false_eq_true, if_true]
    split_ifs <;> rfl
  refine ⟨fun type size h1 h2 => ?_, fun type df => ⟨rfl, rfl⟩, fun type n hn => ?_, fun hd type m hm => ?_,
    fun type size w hw => ?_, fun hd v n hn => ?_⟩
  · unfold mtRvs
    cases size with
    | other => rfl
    | int n =>
      simp only [hle, hlt, if_false]
      split_ifs with h3
      · rfl
      · exact hT _ h1 h2 _ _ _
      · exact hT _ h1 h2 _ _ _
    | tuple l =>
      cases l with
      | nil => rfl
      | cons a l =>
        simp only [hle, hlt, if_false]
        exact hT _ h1 h2 _ _ _
  · unfold mtRvs
    simp only [hle, hlt, hn, if_false, if_true]
    rfl
  · have hd1 : ¬ d = 1 := by omega
    have hd0 : ¬ d = 0 := by omega
    have hsh : mtShape 0 d d [0] none = .error .valueError := by
      simp [mtShape, npSqueeze, hd1, Ne.symm hd0, inPlaceOk, bind, Except.bind]
    have hargs : mvnArgs mean (.mat M) = .error .valueError ∨ ∃ m, mvnArgs mean (.mat M) = .ok ⟨d, m, M⟩ := by
      cases hm with
      | none => exact .inr ⟨_, rfl⟩
      | num v => exact .inl (if_neg hd1)
      | vec m => exact .inr ⟨_, dif_pos rfl⟩
    unfold mtRvs
    simp only [hle, hlt, if_false, lt_irrefl, show ¬ (1 : ℤ) < 0 by norm_num, Int.toNat_zero]
    by_cases ht : pyLower type = pyLower "shifted" ∨ pyLower type = pyLower "kshirsagar"
    · unfold mtRvsT
      simp only [exec_bind, exec_seed_none, exec_draw, Option.isSome_none, Bool.false_eq_true, false_and, if_false]
      by_cases hs : pyLower type = pyLower "shifted"
      · simp only [hs, true_or, not_true_eq_false, if_false, if_true, mvnArgs, exec_bind, exec_ofExcept, mvnRvs, exec_draw,
          MtCov.sized, hsh]
      · have hns : ¬ pyLower "kshirsagar" = pyLower "shifted" := by decide
        simp only [ht.resolve_left hs, hns, or_true, not_true_eq_false, if_false, exec_bind, exec_ofExcept]
        rcases hargs with h2 | ⟨m, h2⟩
        · simp only [h2]
        · simp only [h2, mvnRvs, exec_draw, MtCov.sized, hsh]
    · exact hT _ (fun h => ht (.inl h)) (fun h => ht (.inr h)) _ _ _
  · unfold mtRvs
    cases size with
    | other => rfl
    | int n =>
      simp only [hw, if_true]
      rfl
    | tuple l =>
      cases l with
      | nil => rfl
      | cons a l =>
        simp only [hw, if_true]
        rfl
  · have hd1 : ¬ d = 1 := by omega
    have hns : ¬ pyLower "kshirsagar" = pyLower "shifted" := by decide
    have hT' : ∀ ds, ((mtRvsT (.num v) (.mat M) ν n ds none "kshirsagar" none : Rnd G MtOut).exec σ).1 =
        .error .valueError := fun ds => by
      unfold mtRvsT
      simp only [exec_bind, exec_seed_none, exec_draw, Option.isSome_none, Bool.false_eq_true, false_and, if_false, hns,
        or_true, not_true_eq_false, exec_ofExcept, mvnArgs, if_neg hd1]
    unfold mtRvs
    simp only [hle, hlt, if_false, not_lt.mpr (Int.natCast_nonneg n), Int.toNat_natCast]
    exact hT' _

theorem normalLaw_ne_tShifted {d : ℕ} {S : Matrix (Fin d) (Fin d) ℝ} (hS : S.PosSemidef) (h1 : ∀ j, S j j = 1) (j : Fin d)
    {ν : ℝ} (hν : 1 ≤ ν) (m : Fin d → ℝ) : normalLaw m S ≠ tShifted m S ν := by
  intro h
  have hmj : Measurable fun x : Fin d → ℝ => x j - m j := by fun_prop
  have ha : Measurable fun (x : Fin d → ℝ) k => x k + m k := by fun_prop
  have hn : normalLaw m S = (gauss S).map fun x k => x k + m k := by
    rw [← normalLaw_zero]
    unfold normalLaw
    rw [Measure.map_map ha (by fun_prop)]
    congr 1
    funext z k
    simp [add_comm]
  have h2 := congrArg (fun μ => Measure.map (fun x : Fin d → ℝ => x j - m j) μ) h
  simp only [hn, tShifted] at h2
  rw [Measure.map_map hmj ha, Measure.map_map hmj ha] at h2
  have e : (fun x : Fin d → ℝ => x j - m j) ∘ (fun (x : Fin d → ℝ) k => x k + m k) = fun x => x j := by
    funext x
    simp
  rw [e, gauss_margin hS j, tVector_margin hS h1 (by linarith), h1, Real.toNNReal_one] at h2
  exact gauss_ne_t hν h2

/-- **C139**, **C140** are violated above 10000 degrees of freedom: every row has the normal law, which is not the t law; every
type is accepted, and dimensions of length one are dropped from the shape of the result. -/
theorem mtRvs_large_violation (h : IsIdeal G P) {d : ℕ} {S : Matrix (Fin d) (Fin d) ℝ} (hS : S.PosSemidef) {ν : ℝ}
    (hν : 10000 < ν) {mean : MtMean ℝ} {m : Fin d → ℝ} (hm : MtMean.Is mean m) (hmd : d = 1 ∨ ∀ v, mean ≠ .num v)
    (type : String) :
    (∀ n : ℕ, Draws P (mtRvs mean (.mat S) (some ν) (.int n) type none : Rnd G MtOut)
      (fun x : Fin n → Fin d → ℝ => .arr (npSqueeze [n, d]) x) (iid n (normalLaw m S))) ∧
    (∀ l : List ℕ, l ≠ [] → Draws P (mtRvs mean (.mat S) (some ν) (.tuple l) type none : Rnd G MtOut)
      (fun x : Fin l.prod → Fin d → ℝ => .arr (npSqueeze (l ++ [d])) x) (iid l.prod (normalLaw m S))) ∧
    (0 < d → (∀ j, S j j = 1) → normalLaw m S ≠ tShifted m S ν) := by
  have := h.prob
  have ha : mvnArgs mean (MtCov.mat S) = .ok ⟨d, m, S⟩ := hm.args hmd S
  have h0 : ¬ ν ≤ 0 := by linarith
  refine ⟨fun n => ?_, fun l hl => ?_, fun hd h1 => normalLaw_ne_tShifted hS h1 ⟨0, hd⟩ (by linarith) m⟩
  · have := (h.mvn n d m S hS).map_pure (fun x => MtOut.arr (npSqueeze [n, d]) x) (g := id)
      (e' := fun x : Fin n → Fin d → ℝ => .arr (npSqueeze [n, d]) x) measurable_id (Filter.Eventually.of_forall fun r => rfl)
    rw [Measure.map_id] at this
    refine this.congr fun s => ?_
    unfold mtRvs
    simp only [h0, hν, if_false, if_true, not_lt.mpr (Int.natCast_nonneg n), exec_bind, exec_ofExcept, ha, mvnRvs]
    rfl
  · have := (h.mvn l.prod d m S hS).map_pure (fun x => MtOut.arr (npSqueeze (l ++ [d])) x) (g := id)
      (e' := fun x : Fin l.prod → Fin d → ℝ => .arr (npSqueeze (l ++ [d])) x) measurable_id
      (Filter.Eventually.of_forall fun r => rfl)
    rw [Measure.map_id] at this
    refine this.congr fun s => ?_
    obtain ⟨a, k, rfl⟩ := List.exists_cons_of_ne_nil hl
    unfold mtRvs
    simp only [h0, hν, if_false, if_true, exec_bind, exec_ofExcept, ha, mvnRvs]

omit [MeasurableSpace G.S] in
theorem mtRvs_cov_congr {mean : MtMean ℝ} {cov cov' : MtCov ℝ} (h : mvnArgs mean cov = mvnArgs mean cov') {ν : ℝ} {type : String}
    (hty : pyLower type ≠ pyLower "shifted" ∨ 10000 < ν) (n : ℤ) (seed : Option ℤ) :
    (mtRvs mean cov (some ν) (.int n) type seed : Rnd G MtOut) = mtRvs mean cov' (some ν) (.int n) type seed := by
  unfold mtRvs
  simp only [h]
  by_cases h1 : 10000 < ν
  · simp only [if_pos h1]
  · have hs := hty.resolve_right h1
    simp only [if_neg h1]
    unfold mtRvsT
    simp only [hs, if_false, h, mtShape]

omit [MeasurableSpace G.S] in
/-- **C139** A number as covariance: the variance for a mean that is a number or left out, and that number times the identity
matrix for a mean vector. Without covariance it is one. (The type `shifted` refuses a number, see
`mtRvs_default_cov_violation`.) -/
theorem mtRvs_number_cov {ν : ℝ} {type : String} (hty : pyLower type ≠ pyLower "shifted" ∨ 10000 < ν) (n : ℤ) (seed : Option ℤ)
    (c : ℝ) :
    (∀ mean : MtMean ℝ, (mean = .none ∨ ∃ v, mean = .num v) →
      (mtRvs mean (.num c) (some ν) (.int n) type seed : Rnd G MtOut) =
        mtRvs mean (.mat !![c]) (some ν) (.int n) type seed) ∧
    (∀ (k : ℕ) (m : Fin k → ℝ), (mtRvs (.vec m) (.num c) (some ν) (.int n) type seed : Rnd G MtOut) =
        mtRvs (.vec m) (.mat (c • (1 : Matrix (Fin k) (Fin k) ℝ))) (some ν) (.int n) type seed) ∧
    (∀ mean : MtMean ℝ, (mtRvs mean .none (some ν) (.int n) type seed : Rnd G MtOut) =
        mtRvs mean (.num 1) (some ν) (.int n) type seed) := by
  have e1 : (fun _ _ => c : Fin 1 → Fin 1 → ℝ) = !![c] := by
    funext i j
    fin_cases i; fin_cases j
    rfl
  refine ⟨fun mean hm => mtRvs_cov_congr ?_ hty n seed, fun k m => mtRvs_cov_congr ?_ hty n seed,
    fun mean => mtRvs_cov_congr ?_ hty n seed⟩
  · rcases hm with rfl | ⟨v, rfl⟩
    · simp only [mvnArgs, e1]
    · simp only [mvnArgs, e1, if_true]
  · have e : (fun i j => if i = j then c else 0 : Fin k → Fin k → ℝ) = c • (1 : Matrix (Fin k) (Fin k) ℝ) := by
      funext i j
      simp [Matrix.one_apply]
    simp only [mvnArgs, e, dif_pos, Fin.cast_refl]
    rfl
  · cases mean with
    | none => rfl
    | num v => rfl
    | vec m => rfl

/-! Concrete cases. -/

example (G : Gen) := (mtRvs_number_cov (G := G) (ν := 5) (type := "Kshirsagar") (.inl (by decide)) 10 none 4).1 .none (.inl rfl)

example (seeded : ℕ → ℕ → Answers) := mtRvs_draws_partial (idealGen_isIdeal seeded) (d := 2) le_rfl posDef_half.posSemidef
  (ν := 5) (by norm_num) (by norm_num) (mean := .num 7) (type := "Shifted") (.shifted (by decide) (.num 7)) (n := 500)
  (by norm_num)

example (seeded : ℕ → ℕ → Answers) := mtRvs_draws_partial (idealGen_isIdeal seeded) (d := 2) le_rfl posDef_half.posSemidef
  (ν := 5) (by norm_num) (by norm_num) (mean := .vec ![1, -2]) (type := "Kshirsagar")
  (.kshirsagar (by decide) (.vec ![1, -2]) (.inr fun v h => by cases h)) (n := 1) le_rfl

example (seeded : ℕ → ℕ → Answers) := mtRvs_tuple_draws_partial (idealGen_isIdeal seeded) (d := 2) posDef_half.posSemidef
  (ν := 5) (by norm_num) (by norm_num) (mean := .vec ![1, -2]) (type := "shifted") (.shifted rfl (.vec ![1, -2]))
  (l := [10, 1, 20]) (by simp) (by norm_num) (by norm_num)

example (seeded : ℕ → ℕ → Answers) := mtRvs_number_draws_partial (idealGen_isIdeal seeded) (S := 1) Matrix.PosSemidef.one
  (ν := 5) (by norm_num) (by norm_num) (mean := .num 3) (type := "kshirsagar") (.kshirsagar rfl (.num 3) (.inl rfl))

example := mtLaw_central !![1, 1 / 2; 1 / 2, 1] (ν := 5) (by norm_num) (type := "KSHIRSAGAR")
  (.kshirsagar (by decide) .none (.inr fun v h => by cases h))

example (G : Gen) (σ σ' : G.S) := mtRvs_seeded (.vec ![1, -2]) (.mat !![1, 1 / 2; 1 / 2, 1]) (some 5) (.int 500) "shifted" 42 σ σ'

/-- All arguments left at their defaults. -/
example (G : Gen) (σ : G.S) := mtRvs_default_df_violation .none (.num 1) (.int 1) "shifted" none σ

/-- All arguments but the degrees of freedom left at their defaults. -/
example (G : Gen) (σ : G.S) :
    ((mtRvs .none (.num 1) (some 5) (.int 1) "shifted" none : Rnd G MtOut).exec σ).1 = .error .typeError := by
  obtain ⟨e, h, he⟩ := mtRvs_default_cov_violation .none (.inr ⟨1, rfl⟩) (ν := 5) (by norm_num) (.int 1) none σ
  rw [h, he (by norm_num) rfl ⟨1, rfl⟩]

example (G : Gen) (σ : G.S) := mtRvs_one_dim_violation (.num 1) (fun _ _ => 2) (ν := 5) (by norm_num) (n := 100) (by norm_num)
  "shifted" none σ

example (G : Gen) (σ : G.S) := mtRvs_reject (.vec ![1, -2]) !![1, 1 / 2; 1 / 2, 1] (ν := 5) (by norm_num) (by norm_num) σ

/-- A type that does not exist, and a shape with a dimension of length one that is dropped. -/
example (seeded : ℕ → ℕ → Answers) := (mtRvs_large_violation (idealGen_isIdeal seeded) (d := 2) posDef_half.posSemidef
  (ν := 20000) (by norm_num) (.vec ![1, -2]) (.inr fun v h => by cases h) "no such type").2.1 [10, 1] (by simp)

end rvs

end Copulae
