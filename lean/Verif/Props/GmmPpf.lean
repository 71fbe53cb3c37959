import Verif.Lemmas.GmmPpf
import Verif.Props.GmmMargin
import Verif.Model.Gof
import Verif.Lemmas.Ranks

/-!
C111: `gmm_marginal_ppf`, the quantiles from which `fit` and the likelihood of a Gaussian mixture copula start.
-/

namespace Copulae

open MeasureTheory Set

variable {m d : ℕ} {p : Fin m → ℝ} {μ : Fin m → Fin d → ℝ} {S : Fin m → Matrix (Fin d) (Fin d) ℝ}

theorem mapM_forall₂ {α β : Type} {f : α → Except PyErr β} : ∀ {l : List α} {r : List β},
    l.mapM f = .ok r → List.Forall₂ (fun a b => f a = .ok b) l r
  | [], r, h => by
    cases h
    exact .nil
  | a :: l, r, h => by
    rw [List.mapM_cons] at h
    cases ha : f a with
    | error e => rw [ha] at h; cases h
    | ok b =>
      rw [ha] at h
      cases hl : l.mapM f with
      | error e => rw [hl] at h; cases h
      | ok bs =>
        rw [hl] at h
        cases h
        exact .cons ha (mapM_forall₂ hl)

theorem mapM_finRange {β : Type} {k : ℕ} {f : Fin k → Except PyErr β} {r : List β} (e : β)
    (h : (List.finRange k).mapM f = .ok r) (i : Fin k) : f i = .ok (r.getD i e) := by
  have h2 := mapM_forall₂ h
  have hl := h2.length_eq
  rw [List.length_finRange] at hl
  have := h2.get (i := i.val) (by simp) (by omega)
  simpa [List.getD_eq_getElem?_getD, List.getElem?_eq_getElem (show i.val < r.length by omega)] using this

/-- When every element succeeds or raises `ValueError` and one raises, so does the whole. -/
theorem mapM_valueError {α β : Type} {f : α → Except PyErr β} : ∀ {l : List α},
    (∀ a ∈ l, (∃ b, f a = .ok b) ∨ f a = .error .valueError) → (∃ a ∈ l, f a = .error .valueError) →
    l.mapM f = .error .valueError
  | [], _, h => by simp at h
  | a :: l, hall, h => by
    rw [List.mapM_cons]
    rcases hall a (by simp) with ⟨b, hb⟩ | hb
    · have : ∃ a ∈ l, f a = .error .valueError := by
        obtain ⟨c, hc, he⟩ := h
        rcases List.mem_cons.mp hc with rfl | hc
        · rw [hb] at he
          cases he
        · exact ⟨c, hc, he⟩
      rw [hb, mapM_valueError (fun c hc => hall c (List.mem_cons_of_mem _ hc)) this]
      rfl
    · rw [hb]
      rfl

theorem mapM_cases {α β : Type} {f : α → Except PyErr β} : ∀ {l : List α},
    (∀ a ∈ l, (∃ b, f a = .ok b) ∨ f a = .error .valueError) →
    (∃ r, l.mapM f = .ok r) ∨ l.mapM f = .error .valueError
  | [], _ => Or.inl ⟨[], rfl⟩
  | a :: l, hall => by
    rw [List.mapM_cons]
    rcases hall a (by simp) with ⟨b, hb⟩ | hb
    · rcases mapM_cases fun c hc => hall c (List.mem_cons_of_mem _ hc) with ⟨r, hr⟩ | hr
      · exact Or.inl ⟨b :: r, by rw [hb, hr]; rfl⟩
      · exact Or.inr (by rw [hb, hr]; rfl)
    · exact Or.inr (by rw [hb]; rfl)

theorem ppfValue_cases (s : GMCParam m d) (res spread : ℕ) (j : Fin d) (q : Fl) :
    (∃ x, ppfValue s res spread j q = .ok x) ∨ ppfValue s res spread j q = .error .valueError := by
  unfold ppfValue interp1d
  simp only
  split
  · split_ifs
    · exact Or.inr rfl
    · exact Or.inl ⟨_, rfl⟩
  · exact Or.inr rfl

/-- **C111.** For every valid parameter set there are increasing functions `Q j` which `gmm_marginal_ppf` applies to
column `j`; it succeeds for every matrix with entries in `[3e-7, 1 - 3e-7]`, and the probability that the margin
of the normal mixture is below the value returned for `v` differs from `v` by at most 0.5% for each
component of the mixture (plus 1.25e-5). -/
theorem gmm_ppf_accurate (h : Spec.IsMixture p S) :
    ∃ Q : Fin d → ℝ → ℝ, (∀ j, StrictMonoOn (Q j) (Icc 3e-7 (1 - 3e-7))) ∧
      (∀ j, ∀ v ∈ Icc (3e-7 : ℝ) (1 - 3e-7),
        |(Spec.gmmLaw p μ S).real {z | z j ≤ Q j v} - v| ≤ 0.005 * m + 1.25e-5) ∧
      ∀ (n : ℕ) (validate : Bool) (v : Fin n → Fin d → ℝ), (∀ i j, v i j ∈ Icc (3e-7 : ℝ) (1 - 3e-7)) →
        gmmMarginalPpf (flParam p μ S) 2000 5 validate (fun i j => .fin (v i j)) =
          .ok fun i j => .fin (Q j (v i j)) := by
  choose Q hok hmono hacc _ _ using ppf_quantile (μ := μ) h
  refine ⟨Q, hmono, fun j v hv => ?_, fun n validate v hv => ?_⟩
  · have := hacc j v hv
    norm_num at this ⊢
    exact this
  · have hcols : (List.finRange d).mapM (fun j => (List.finRange n).mapM fun i =>
        ppfValue (flParam p μ S) 2000 5 j (.fin (v i j))) =
        .ok ((List.finRange d).map fun j => (List.finRange n).map fun i => Fl.fin (Q j (v i j))) :=
      mapM_ok _ _ _ fun j _ => mapM_ok _ _ _ fun i _ => hok j _ (hv i j).1 (hv i j).2
    have hv0 : ¬ ((validate = true) ∧ ((∃ i j, Fl.fin (v i j) < .fin 0) ∨ ∃ i j, Fl.fin 1 < Fl.fin (v i j))) := by
      rintro ⟨-, ⟨i, j, hc⟩ | ⟨i, j, hc⟩⟩
      · have := (hv i j).1
        rw [Fl.fin_lt_fin] at hc
        norm_num at this
        linarith
      · have := (hv i j).2
        rw [Fl.fin_lt_fin] at hc
        norm_num at this
        linarith
    unfold gmmMarginalPpf
    rw [if_neg hv0, hcols]
    simp only [bind, Except.bind, pure, Except.pure]
    congr 1
    funext i j
    have h1 : ((List.finRange d).map fun j => (List.finRange n).map fun i => Fl.fin (Q j (v i j))).getD j [] =
        (List.finRange n).map fun i => Fl.fin (Q j (v i j)) := by
      simp [List.getD_eq_getElem?_getD]
    have h2 : ((List.finRange n).map fun i => Fl.fin (Q j (v i j))).getD i .nan = .fin (Q j (v i j)) := by
      simp [List.getD_eq_getElem?_getD]
    rw [h1, h2, ppfFix, if_neg (by simp), if_neg (by simp)]

/-- **C111.** `fit` turns the data into pseudo-observations first: for up to 3,000,000 rows `gmm_marginal_ppf` never fails
on them, and it keeps the order of the data. -/
theorem gmm_ppf_pseudo_obs (h : Spec.IsMixture p S) {n : ℕ} (hn : n ≤ 3000000) (x : Fin n → Fin d → ℝ)
    {ties : String} {u : Fin n → Fin d → ℝ} (hu : pseudoObsMat x ties = .ok u) :
    ∃ q : Fin n → Fin d → ℝ,
      gmmMarginalPpf (flParam p μ S) 2000 5 false (fun i j => .fin (u i j)) = .ok (fun i j => .fin (q i j)) ∧
      (∀ i j, |(Spec.gmmLaw p μ S).real {z | z j ≤ q i j} - u i j| ≤ 0.005 * m + 1.25e-5) ∧
      ∀ i k j, x i j < x k j → q i j < q k j := by
  obtain ⟨Q, hmono, hacc, hok⟩ := gmm_ppf_accurate (μ := μ) h
  have hux : ∃ t, u = fun i j => ((rankdata t (fun k => x k j) i : ℚ) : ℝ) / (n + 1) := by
    unfold pseudoObsMat at hu
    cases ht : parseTies ties with
    | error e => rw [ht] at hu; cases hu
    | ok t =>
      rw [ht] at hu
      exact ⟨t, (Except.ok.inj hu).symm⟩
  obtain ⟨t, rfl⟩ := hux
  have hnr : (n : ℝ) ≤ 3000000 := by exact_mod_cast hn
  have hn0 : (0 : ℝ) < n + 1 := by positivity
  have hmem : ∀ i j, ((rankdata t (fun k => x k j) i : ℚ) : ℝ) / (n + 1) ∈ Icc (3e-7 : ℝ) (1 - 3e-7) := by
    intro i j
    have h1 : (1 : ℝ) ≤ (rankdata t (fun k => x k j) i : ℚ) := by
      exact_mod_cast (rankdata_bounds t (fun k => x k j) i).1
    have h2 : ((rankdata t (fun k => x k j) i : ℚ) : ℝ) ≤ n := by
      exact_mod_cast rankdata_le_n t (fun k => x k j) i
    rw [mem_Icc, le_div_iff₀ hn0, div_le_iff₀ hn0]
    norm_num
    constructor <;> nlinarith
  refine ⟨_, hok n false _ hmem, fun i j => hacc j _ (hmem i j), fun i k j hik => ?_⟩
  refine hmono j (hmem i j) (hmem k j) ?_
  have : ((rankdata t (fun a => x a j) i : ℚ) : ℝ) < (rankdata t (fun a => x a j) k : ℚ) := by
    exact_mod_cast rankdata_lt t (fun a => x a j) hik
  gcongr

/-- **C111.** The documented domain is `[0, 1]`, and the code means to return infinite quantiles at its ends; in fact a
matrix with an entry at (or beyond) an end always raises `ValueError`. -/
theorem gmm_ppf_ends (h : Spec.IsMixture p S) {n : ℕ} (validate : Bool) (q : Fin n → Fin d → Fl) {i : Fin n} {j : Fin d}
    {v : ℝ} (hq : q i j = .fin v) (hv : v ≤ 0 ∨ 1 ≤ v) :
    gmmMarginalPpf (flParam p μ S) 2000 5 validate q = .error .valueError := by
  obtain ⟨Q, -, -, -, herr, -⟩ := ppf_quantile (μ := μ) h j
  unfold gmmMarginalPpf
  split_ifs
  · rfl
  · have : (List.finRange d).mapM (fun j => (List.finRange n).mapM fun i =>
        ppfValue (flParam p μ S) 2000 5 j (q i j)) = .error .valueError := by
      refine mapM_valueError (fun a _ => mapM_cases fun b _ => ppfValue_cases _ _ _ _ _)
        ⟨j, List.mem_finRange _, mapM_valueError (fun b _ => ppfValue_cases _ _ _ _ _) ⟨i, List.mem_finRange _, ?_⟩⟩
      rw [hq]
      exact herr v hv
    rw [this]
    rfl

/-- **C111.** Undefined entries stay undefined. -/
theorem gmm_ppf_nan (h : Spec.IsMixture p S) {n : ℕ} {q x : Fin n → Fin d → Fl} {validate : Bool}
    (hx : gmmMarginalPpf (flParam p μ S) 2000 5 validate q = .ok x) {i : Fin n} {j : Fin d} (hq : q i j = .nan) :
    x i j = .nan := by
  unfold gmmMarginalPpf at hx
  split_ifs at hx
  · cases hx
  · cases hc : (List.finRange d).mapM (fun j => (List.finRange n).mapM fun i =>
        ppfValue (flParam p μ S) 2000 5 j (q i j)) with
    | error e => rw [hc] at hx; cases hx
    | ok cols =>
      rw [hc] at hx
      cases hx
      have h1 := mapM_finRange [] hc j
      have h2 := mapM_finRange .nan h1 i
      rw [hq, ppf_nan h] at h2
      change ppfFix (q i j) ((cols.getD ↑j []).getD (↑i) Fl.nan) = .nan
      have e1 : ¬ ((Fl.nan : Fl) = .nan ∧ Fl.nan ≤ Fl.fin 0) := fun h => h.2
      have e2 : ¬ ((Fl.nan : Fl) = .nan ∧ Fl.fin 1 ≤ Fl.nan) := fun h => h.2
      rw [← Except.ok.inj h2, hq, ppfFix, if_neg e1, if_neg e2]

example : ∃ q : Fin 3 → Fin 2 → ℝ,
    gmmMarginalPpf (flParam ![0.25, 0.75] ![![0, 1], ![2, 3]] ![!![1, 0.5; 0.5, 1], !![4, 0; 0, 9]]) 2000 5 false
      (fun i j => .fin (![![0.25, 0.5], ![0.5, 0.75], ![0.75, 0.25]] i j)) = .ok (fun i j => .fin (q i j)) := by
  obtain ⟨Q, -, -, hok⟩ := gmm_ppf_accurate (μ := ![![0, 1], ![2, 3]]) twoMix_valid
  refine ⟨_, hok 3 false _ fun i j => ?_⟩
  fin_cases i <;> fin_cases j <;> norm_num [mem_Icc]

example := gmm_ppf_ends (μ := ![![0, 1], ![2, 3]]) twoMix_valid true (fun (_ : Fin 1) j => .fin (![0.5, 1] j)) (i := 0) (j := 1)
  (v := 1) rfl (by norm_num)

example := gmm_ppf_pseudo_obs (μ := ![![0, 1], ![2, 3]]) twoMix_valid (n := 3) (by norm_num) (fun i j => (i.val : ℝ) * j.val)
  (ties := "average") rfl

end Copulae
