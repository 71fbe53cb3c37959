import Verif.Lemmas.EmAscent
import Verif.Props.GmcLogLik
import Verif.Model.GmcEm

/-!
C113: an iteration of expectation maximisation does not decrease the likelihood of the normal mixture.
-/

namespace Copulae

open Matrix

variable {n m d : ℕ} {p : Fin m → ℝ} {μ : Fin m → Fin d → ℝ} {S : Fin m → Matrix (Fin d) (Fin d) ℝ}

/-- The posterior probability of component `c` at the point `x`. -/
noncomputable def postProb (p : Fin m → ℝ) (μ : Fin m → Fin d → ℝ) (S : Fin m → Matrix (Fin d) (Fin d) ℝ)
    (x : Fin d → ℝ) (c : Fin m) : ℝ := p c * gaussPdf (S c) (fun j => x j - μ c j) / gmmPdf p μ S x

theorem eStep_exact (h : Spec.IsMixture p S) (hS : ∀ c, (S c).PosDef) {N : MvnPdf d} (hN : N.Exact)
    (x : Fin n → Fin d → ℝ) :
    eStep (flParam p μ S).prob
      (fun i c => N.joint ((flParam p μ S).means c) ((flParam p μ S).covs c) fun j => .fin (x i j)) =
      fun i c => .fin (postProb p μ S (x i) c) := by
  have hd : ∀ i c, N.joint ((flParam p μ S).means c) ((flParam p μ S).covs c) (fun j => .fin (x i j)) =
      .fin (gaussPdf (S c) fun j => x i j - μ c j) := fun i c => by
    simp only [flParam]
    exact hN.joint _ _ _ (hS c)
  funext i c
  unfold eStep
  simp only [hd]
  have hsum : ∑ c', (flParam p μ S).prob c' * Fl.fin (gaussPdf (S c') fun j => x i j - μ c' j) =
      .fin (gmmPdf p μ S (x i)) := by
    simp only [flParam, Fl.fin_mul_fin, Fl.sum_fin, gmmPdf]
  rw [hsum]
  simp only [flParam, Fl.fin_mul_fin]
  rw [Fl.fin_div_fin' _ (gmmPdf_pos h hS (x i)).ne']
  rfl

/-- The points do not lie in a common hyperplane. -/
def AffinelySpan (x : Fin n → Fin d → ℝ) : Prop := ∀ v : Fin d → ℝ, v ≠ 0 → ∃ i k, v ⬝ᵥ x i ≠ v ⬝ᵥ x k

theorem wCov_posDef {x : Fin n → Fin d → ℝ} (hx : AffinelySpan x) {w : Fin n → Fin m → ℝ} {c : Fin m}
    (hw : ∀ i, 0 < w i c) (h0 : ∀ i c, 0 ≤ w i c) (hpos : 0 < ∑ i, w i c) : (wCov x w c).PosDef := by
  refine Matrix.PosDef.of_dotProduct_mulVec_pos (wCov_posSemidef x w h0 c).isHermitian fun v hv => ?_
  have e : star v ⬝ᵥ wCov x w c *ᵥ v = ∑ i, relWt w i c * (v ⬝ᵥ fun j => x i j - wMean x w c j) ^ 2 := by
    simp only [star_trivial, dotProduct, mulVec, wCov, Finset.sum_mul, Finset.mul_sum]
    rw [Finset.sum_congr rfl fun a _ => Finset.sum_comm, Finset.sum_comm]
    refine Finset.sum_congr rfl fun i _ => ?_
    rw [sq, Finset.sum_mul_sum, Finset.mul_sum]
    refine Finset.sum_congr rfl fun a _ => ?_
    rw [Finset.mul_sum]
    exact Finset.sum_congr rfl fun b _ => by ring
  rw [e]
  have hr : ∀ i, 0 < relWt w i c := fun i => div_pos (hw i) hpos
  refine Finset.sum_pos' (fun i _ => mul_nonneg (hr i).le (sq_nonneg _)) ?_
  obtain ⟨i, k, hik⟩ := hx v hv
  by_contra hc
  push Not at hc
  have hz : ∀ i, v ⬝ᵥ x i = v ⬝ᵥ wMean x w c := fun i => by
    have h1 := hc i (Finset.mem_univ i)
    have h2 : (v ⬝ᵥ fun j => x i j - wMean x w c j) ^ 2 ≤ 0 := by
      by_contra h3
      push Not at h3
      exact absurd (mul_pos (hr i) h3) (not_lt.mpr h1)
    have h3 : (v ⬝ᵥ fun j => x i j - wMean x w c j) = 0 := by nlinarith [sq_nonneg (v ⬝ᵥ fun j => x i j - wMean x w c j)]
    have h4 : (fun j => x i j - wMean x w c j) = x i - wMean x w c := rfl
    rw [h4, dotProduct_sub, sub_eq_zero] at h3
    exact h3
  exact hik ((hz i).trans (hz k).symm)

/-- The ascent property in real numbers. -/
theorem em_ascent (h : Spec.IsMixture p S) (hS : ∀ c, (S c).PosDef) (x : Fin n → Fin d → ℝ) (hx : AffinelySpan x)
    (hp : ∀ c, 0 < p c) (hn : 0 < n) :
    ∑ i, Real.log (gmmPdf p μ S (x i)) ≤
      ∑ i, Real.log (gmmPdf
        (fun c => (∑ i, postProb p μ S (x i) c) / ∑ c', ∑ i, postProb p μ S (x i) c')
        (wMean x fun i => postProb p μ S (x i)) (wCov x fun i => postProb p μ S (x i)) (x i)) := by
  set w : Fin n → Fin m → ℝ := fun i => postProb p μ S (x i) with hwd
  have hf : ∀ i, 0 < gmmPdf p μ S (x i) := fun i => gmmPdf_pos h hS (x i)
  have hφ : ∀ i c, 0 < gaussPdf (S c) fun j => x i j - μ c j := fun i c => gaussPdf_pos' (hS c) _
  have hw : ∀ i c, 0 < w i c := fun i c => div_pos (mul_pos (hp c) (hφ i c)) (hf i)
  have hNpos : ∀ c, 0 < ∑ i, w i c := fun c => Finset.sum_pos (fun i _ => hw i c) ⟨⟨0, hn⟩, Finset.mem_univ _⟩
  have hrow : ∀ i, ∑ c, w i c = 1 := fun i => by
    simp only [hwd, postProb]
    rw [← Finset.sum_div]
    exact div_self (hf i).ne'
  have htot : ∑ c', ∑ i, w i c' = n := by
    rw [Finset.sum_comm, Finset.sum_congr rfl fun i _ => hrow i]
    simp
  have hn' : (0 : ℝ) < n := by exact_mod_cast hn
  set p' : Fin m → ℝ := fun c => (∑ i, w i c) / ∑ c', ∑ i, w i c' with hp'd
  have hp' : ∀ c, 0 < p' c := fun c => by
    simp only [hp'd, htot]
    exact div_pos (hNpos c) hn'
  have hN : ∀ c, ∑ i, w i c = n * p' c := fun c => by
    simp only [hp'd, htot]
    rw [mul_div_cancel₀ _ hn'.ne']
  have hp's : ∑ c, p' c = 1 := by
    simp only [hp'd]
    rw [← Finset.sum_div, htot]
    exact div_self hn'.ne'
  have hW : ∀ c, (wCov x w c).PosDef := fun c =>
    wCov_posDef hx (fun i => hw i c) (fun i c => (hw i c).le) (hNpos c)
  have hφ' : ∀ i c, 0 < gaussPdf (wCov x w c) fun j => x i j - wMean x w c j := fun i c => gaussPdf_pos' (hW c) _
  -- each row, by Jensen's inequality
  have hjen : ∀ i, ∑ c, w i c * (Real.log (p' c) - Real.log (p c) +
      (Real.log (gaussPdf (wCov x w c) fun j => x i j - wMean x w c j) -
        Real.log (gaussPdf (S c) fun j => x i j - μ c j))) ≤
      Real.log (gmmPdf p' (wMean x w) (wCov x w) (x i)) - Real.log (gmmPdf p μ S (x i)) := by
    intro i
    have hy : ∀ c, 0 < p' c * (gaussPdf (wCov x w c) fun j => x i j - wMean x w c j) /
        (p c * gaussPdf (S c) fun j => x i j - μ c j) := fun c =>
      div_pos (mul_pos (hp' c) (hφ' i c)) (mul_pos (hp c) (hφ i c))
    have hj := log_jensen (fun c => (hw i c).le) (hrow i) hy
    have e1 : ∑ c, w i c * (p' c * (gaussPdf (wCov x w c) fun j => x i j - wMean x w c j) /
        (p c * gaussPdf (S c) fun j => x i j - μ c j)) =
        gmmPdf p' (wMean x w) (wCov x w) (x i) / gmmPdf p μ S (x i) := by
      have : ∀ c, w i c * (p' c * (gaussPdf (wCov x w c) fun j => x i j - wMean x w c j) /
          (p c * gaussPdf (S c) fun j => x i j - μ c j)) =
          p' c * (gaussPdf (wCov x w c) fun j => x i j - wMean x w c j) / gmmPdf p μ S (x i) := fun c => by
        have h1 := (mul_pos (hp c) (hφ i c)).ne'
        have h2 := (hf i).ne'
        simp only [hwd, postProb]
        rw [div_mul_div_comm, mul_comm (gmmPdf p μ S (x i)), mul_div_mul_left _ _ h1]
      rw [Finset.sum_congr rfl fun c _ => this c, ← Finset.sum_div]
      rfl
    have hf' : 0 < gmmPdf p' (wMean x w) (wCov x w) (x i) := by
      obtain ⟨c0, -⟩ := h.exists_pos
      exact Finset.sum_pos (fun c _ => mul_pos (hp' c) (hφ' i c)) ⟨c0, Finset.mem_univ _⟩
    rw [e1, Real.log_div hf'.ne' (hf i).ne'] at hj
    refine le_trans (le_of_eq ?_) hj
    refine Finset.sum_congr rfl fun c _ => ?_
    rw [Real.log_div (mul_pos (hp' c) (hφ' i c)).ne' (mul_pos (hp c) (hφ i c)).ne',
      Real.log_mul (hp' c).ne' (hφ' i c).ne', Real.log_mul (hp c).ne' (hφ i c).ne']
    ring
  have hsum := Finset.sum_le_sum fun i (_ : i ∈ Finset.univ) => hjen i
  rw [Finset.sum_sub_distrib, Finset.sum_comm] at hsum
  -- the weights, by Gibbs' inequality, and the components, by maximum likelihood
  have hcomp : ∀ c, n * (p' c * Real.log (p' c) - p' c * Real.log (p c)) ≤
      ∑ i, w i c * (Real.log (p' c) - Real.log (p c) +
        (Real.log (gaussPdf (wCov x w c) fun j => x i j - wMean x w c j) -
          Real.log (gaussPdf (S c) fun j => x i j - μ c j))) := by
    intro c
    have hml := gauss_mle (w := fun i => relWt w i c) (relWt_sum w c (hNpos c)) x (a := μ c) (b := wMean x w c)
      (fun j => rfl) (V := S c) (W := wCov x w c) (fun j k => rfl) (hS c) (hW c)
    have hre : ∀ i, w i c = (∑ i', w i' c) * relWt w i c := fun i => by
      rw [relWt, mul_div_cancel₀ _ (hNpos c).ne']
    have e1 : ∑ i, w i c * (Real.log (p' c) - Real.log (p c) +
        (Real.log (gaussPdf (wCov x w c) fun j => x i j - wMean x w c j) -
          Real.log (gaussPdf (S c) fun j => x i j - μ c j))) =
        (∑ i, w i c) * (Real.log (p' c) - Real.log (p c)) + (∑ i, w i c) *
          (∑ i, relWt w i c * Real.log (gaussPdf (wCov x w c) fun j => x i j - wMean x w c j) -
            ∑ i, relWt w i c * Real.log (gaussPdf (S c) fun j => x i j - μ c j)) := by
      rw [← Finset.sum_sub_distrib, Finset.mul_sum, Finset.sum_mul, ← Finset.sum_add_distrib]
      refine Finset.sum_congr rfl fun i _ => ?_
      rw [← mul_sub, ← mul_assoc, ← hre]
      ring
    rw [e1]
    have h2 := mul_nonneg (hNpos c).le (sub_nonneg.mpr hml)
    have h3 : (n : ℝ) * (p' c * Real.log (p' c) - p' c * Real.log (p c)) =
        (∑ i, w i c) * (Real.log (p' c) - Real.log (p c)) := by
      rw [hN c]
      ring
    linarith
  have hcs := Finset.sum_le_sum fun c (_ : c ∈ Finset.univ) => hcomp c
  rw [← Finset.mul_sum, Finset.sum_sub_distrib] at hcs
  have hg := gibbs (fun c => (hp c).le) (fun c => (hp' c).le) (by rw [h.sum, hp's]) (fun c _ => (hp c).ne')
  have := mul_nonneg hn'.le (sub_nonneg.mpr hg)
  linarith

/-- The densities and the likelihood of `expectation_maximization` are those of `mvn.pdf`. -/
structure EmFns.Uses (F : EmFns n m d) (N : MvnPdf d) : Prop where
  dens : ∀ q s, F.dens q s = fun i c => N.joint (s.means c) (s.covs c) (q i)
  gmm : ∀ q s, F.gmm q s = gmmLogLik s fun i c => N.joint (s.means c) (s.covs c) (q i)

/-- The new parameters of an iteration. -/
noncomputable def emNext (p : Fin m → ℝ) (μ : Fin m → Fin d → ℝ) (S : Fin m → Matrix (Fin d) (Fin d) ℝ)
    (x : Fin n → Fin d → ℝ) : GMCParam m d :=
  flParam (fun c => (∑ i, postProb p μ S (x i) c) / ∑ c', ∑ i, postProb p μ S (x i) c')
    (wMean x fun i => postProb p μ S (x i)) (wCov x fun i => postProb p μ S (x i))

theorem postProb_pos (h : Spec.IsMixture p S) (hS : ∀ c, (S c).PosDef) (hp : ∀ c, 0 < p c) (x : Fin d → ℝ)
    (c : Fin m) : 0 < postProb p μ S x c :=
  div_pos (mul_pos (hp c) (gaussPdf_pos' (hS c) _)) (gmmPdf_pos h hS x)

theorem emNext_valid (h : Spec.IsMixture p S) (hS : ∀ c, (S c).PosDef) (hp : ∀ c, 0 < p c) (hn : 0 < n)
    {x : Fin n → Fin d → ℝ} (hx : AffinelySpan x) :
    Spec.IsMixture (fun c => (∑ i, postProb p μ S (x i) c) / ∑ c', ∑ i, postProb p μ S (x i) c')
      (wCov x fun i => postProb p μ S (x i)) ∧ ∀ c, (wCov x (fun i => postProb p μ S (x i)) c).PosDef := by
  obtain ⟨c0, -⟩ := h.exists_pos
  have hw : ∀ i c, 0 < postProb p μ S (x i) c := fun i c => postProb_pos h hS hp _ c
  have hNpos : ∀ c, 0 < ∑ i, postProb p μ S (x i) c := fun c =>
    Finset.sum_pos (fun i _ => hw i c) ⟨⟨0, hn⟩, Finset.mem_univ _⟩
  have htot : 0 < ∑ c', ∑ i, postProb p μ S (x i) c' :=
    Finset.sum_pos (fun c _ => hNpos c) ⟨c0, Finset.mem_univ _⟩
  have hW : ∀ c, (wCov x (fun i => postProb p μ S (x i)) c).PosDef := fun c =>
    wCov_posDef hx (fun i => hw i c) (fun i c => (hw i c).le) (hNpos c)
  refine ⟨⟨fun c => (div_pos (hNpos c) htot).le, ?_, fun c => (hW c).posSemidef, fun c j => (hW c).diag_pos⟩, hW⟩
  rw [← Finset.sum_div, div_self htot.ne']

/-- The iteration, when every component has a positive probability. -/
theorem emBody_exact {F : EmFns n m d} {N : MvnPdf d} (hF : F.Uses N) (hN : N.Exact)
    (h : Spec.IsMixture p S) (hS : ∀ c, (S c).PosDef) (hp : ∀ c, 0 < p c) (hn : 0 < n) (x : Fin n → Fin d → ℝ)
    (l : List (EmRec m d)) :
    emBody F (fun i j => .fin (x i j), flParam p μ S, l) = (do
      let q ← F.ppf (emNext p μ S x)
      return (q, emNext p μ S x, ⟨F.gmm (fun i j => .fin (x i j)) (emNext p μ S x), F.gmcm (emNext p μ S x),
        emNext p μ S x⟩ :: l)) := by
  have hk : eStep (flParam p μ S).prob (F.dens (fun i j => .fin (x i j)) (flParam p μ S)) =
      fun i c => .fin (postProb p μ S (x i) c) := by rw [hF.dens, eStep_exact h hS hN x]
  obtain ⟨c0, -⟩ := h.exists_pos
  have hw : ∀ i c, 0 < postProb p μ S (x i) c := fun i c => postProb_pos h hS hp _ c
  have hNpos : ∀ c, 0 < ∑ i, postProb p μ S (x i) c := fun c =>
    Finset.sum_pos (fun i _ => hw i c) ⟨⟨0, hn⟩, Finset.mem_univ _⟩
  have hc : ¬ ∃ c, ∑ i, Fl.fin (postProb p μ S (x i) c) = Fl.fin 0 := by
    rintro ⟨c, h0⟩
    rw [Fl.sum_fin] at h0
    exact (hNpos c).ne' (Fl.fin.inj h0)
  obtain ⟨hm, -⟩ := mStep_valid x (fun i => postProb p μ S (x i)) F.ext (Nat.one_le_of_lt c0.2)
    (fun i c => (hw i c).le) hNpos
  unfold emBody
  dsimp only
  rw [hk, if_neg hc, hm]
  rfl

/-- An iteration raises when a component has probability zero or when there are no data. -/
theorem emBody_zero {F : EmFns n m d} {N : MvnPdf d} (hF : F.Uses N) (hN : N.Exact)
    (h : Spec.IsMixture p S) (hS : ∀ c, (S c).PosDef) (hz : n = 0 ∨ ∃ c, p c = 0) (x : Fin n → Fin d → ℝ)
    (l : List (EmRec m d)) :
    emBody F (fun i j => .fin (x i j), flParam p μ S, l) = .error .fitException := by
  have hk : eStep (flParam p μ S).prob (F.dens (fun i j => .fin (x i j)) (flParam p μ S)) =
      fun i c => .fin (postProb p μ S (x i) c) := by rw [hF.dens, eStep_exact h hS hN x]
  obtain ⟨c0, -⟩ := h.exists_pos
  have hc : ∃ c, ∑ i, Fl.fin (postProb p μ S (x i) c) = Fl.fin 0 := by
    rcases hz with rfl | ⟨c, h0⟩
    · exact ⟨c0, rfl⟩
    · refine ⟨c, ?_⟩
      rw [Fl.sum_fin]
      congr 1
      refine Finset.sum_eq_zero fun i _ => ?_
      rw [postProb, h0, zero_mul, zero_div]
  unfold emBody
  dsimp only
  rw [hk, if_pos hc]
  rfl

/-- **C113.** With exact normal densities, if an iteration of `expectation_maximization` succeeds from a valid mixture
with positive definite covariance matrices and quantiles `x` that do not lie in a hyperplane, then the new parameters are
again a valid mixture with positive definite covariance matrices, and their normal mixture likelihood at `x`, which is the
value recorded, is not below that of the old parameters. -/
theorem em_iteration_ascent {F : EmFns n m d} {N : MvnPdf d} (hF : F.Uses N) (hN : N.Exact)
    (h : Spec.IsMixture p S) (hS : ∀ c, (S c).PosDef) (x : Fin n → Fin d → ℝ) (hx : AffinelySpan x)
    {l l' : List (EmRec m d)} {q' : Fin n → Fin d → Fl} {s' : GMCParam m d}
    (hr : emBody F (fun i j => .fin (x i j), flParam p μ S, l) = .ok (q', s', l')) :
    ∃ (p' : Fin m → ℝ) (μ' : Fin m → Fin d → ℝ) (S' : Fin m → Matrix (Fin d) (Fin d) ℝ),
      s' = flParam p' μ' S' ∧ Spec.IsMixture p' S' ∧ (∀ c, (S' c).PosDef) ∧
      ∃ a b : ℝ, F.gmm (fun i j => .fin (x i j)) (flParam p μ S) = .fin a ∧
        l' = ⟨.fin b, F.gmcm s', s'⟩ :: l ∧ a ≤ b := by
  have hz : ¬ (n = 0 ∨ ∃ c, p c = 0) := fun hz => by
    rw [emBody_zero hF hN h hS hz] at hr
    cases hr
  push Not at hz
  have hp : ∀ c, 0 < p c := fun c => lt_of_le_of_ne (h.nonneg c) (hz.2 c).symm
  have hn : 0 < n := Nat.pos_of_ne_zero hz.1
  obtain ⟨hmix, hW⟩ := emNext_valid (μ := μ) h hS hp hn hx
  rw [emBody_exact hF hN h hS hp hn] at hr
  revert hr
  cases F.ppf (emNext p μ S x) with
  | error e => simp [bind, Except.bind]
  | ok q =>
    intro hr
    simp only [bind, Except.bind, pure, Except.pure, Except.ok.injEq, Prod.mk.injEq] at hr
    obtain ⟨-, rfl, rfl⟩ := hr
    refine ⟨_, _, _, rfl, hmix, hW, _, _, ?_, ?_, em_ascent (μ := μ) h hS x hx hp hn⟩
    · rw [hF.gmm]
      exact gmmLogLik_fin h hS hN x
    · rw [hF.gmm, emNext, gmmLogLik_fin hmix hW hN x]

/-- Three points of the plane that are not on a line. -/
theorem three_points_span : AffinelySpan (![![0, 0], ![1, 0], ![0, 1]] : Fin 3 → Fin 2 → ℝ) := by
  intro v hv
  by_contra hc
  push Not at hc
  have h1 := hc 0 1
  have h2 := hc 0 2
  simp [dotProduct, Fin.sum_univ_two] at h1 h2
  exact hv (funext fun j => by fin_cases j <;> simp [h1.symm, h2.symm])

/-- The functions of `expectation_maximization` with exact densities. -/
noncomputable def exactEm (n m d : ℕ) (ext : CovNearest) (u : Fin n → Fin d → Fl) : EmFns n m d where
  ppf s := gmmMarginalPpf s 2000 5 false u
  dens q s i c := (exactMvn d).joint (s.means c) (s.covs c) (q i)
  gmm q s := gmmLogLik s fun i c => (exactMvn d).joint (s.means c) (s.covs c) (q i)
  gmcm s := match gmcmLogLik (exactMvn d) s u with
    | .ok v => v
    | .error _ => .nan
  ext := ext

/-- The hypotheses are met: an iteration from the mixture of two normal laws at three points succeeds. -/
example (ext : CovNearest) : (exactEm 3 2 2 ext fun _ _ => .fin 0.5).Uses (exactMvn 2) ∧
    Spec.IsMixture (![0.25, 0.75] : Fin 2 → ℝ) ![!![1, 0.5; 0.5, 1], !![4, 0; 0, 9]] ∧
    AffinelySpan (![![0, 0], ![1, 0], ![0, 1]] : Fin 3 → Fin 2 → ℝ) ∧
    ∃ r, emBody (exactEm 3 2 2 ext fun _ _ => .fin 0.5)
      (fun i j => .fin ((![![0, 0], ![1, 0], ![0, 1]] : Fin 3 → Fin 2 → ℝ) i j),
        flParam ![0.25, 0.75] ![![0, 1], ![2, 3]] ![!![1, 0.5; 0.5, 1], !![4, 0; 0, 9]], []) = .ok r := by
  have hF : (exactEm 3 2 2 ext fun _ _ => .fin 0.5).Uses (exactMvn 2) := ⟨fun _ _ => rfl, fun _ _ => rfl⟩
  have hp : ∀ c, 0 < (![0.25, 0.75] : Fin 2 → ℝ) c := fun c => by fin_cases c <;> norm_num
  refine ⟨hF, twoMix_valid, three_points_span, ?_⟩
  rw [emBody_exact hF (exactMvn_ok 2) twoMix_valid twoMix_posDef hp (by norm_num)]
  obtain ⟨hmix, -⟩ := emNext_valid (μ := ![![0, 1], ![2, 3]]) twoMix_valid twoMix_posDef hp (by norm_num)
    three_points_span
  obtain ⟨Q, -, -, hQ⟩ := gmm_ppf_accurate (μ := wMean (![![0, 0], ![1, 0], ![0, 1]] : Fin 3 → Fin 2 → ℝ) fun i =>
    postProb ![0.25, 0.75] ![![0, 1], ![2, 3]] ![!![1, 0.5; 0.5, 1], !![4, 0; 0, 9]]
      ((![![0, 0], ![1, 0], ![0, 1]] : Fin 3 → Fin 2 → ℝ) i)) hmix
  have := hQ 3 false (fun _ _ => 0.5) fun _ _ => by constructor <;> norm_num
  simp only [exactEm, emNext, this, bind, Except.bind, pure, Except.pure]
  exact ⟨_, rfl⟩

/-- A component of weight zero ends the fit. -/
theorem zeroMix_valid : Spec.IsMixture (d := 2) ![0, 1] fun _ => (1 : Matrix (Fin 2) (Fin 2) ℝ) where
  nonneg c := by fin_cases c <;> norm_num
  sum := by norm_num [Fin.sum_univ_two]
  psd _ := Matrix.PosSemidef.one
  var _ j := by simp

example (ext : CovNearest) (l : List (EmRec 2 2)) := emBody_zero (F := exactEm 3 2 2 ext fun _ _ => .fin 0.5) (N := exactMvn 2)
  (μ := ![![0, 1], ![2, 3]]) ⟨fun _ _ => rfl, fun _ _ => rfl⟩ (exactMvn_ok 2) zeroMix_valid (fun _ => Matrix.PosDef.one)
  (.inr ⟨0, rfl⟩) (fun i j => i.val + j.val) l

end Copulae
