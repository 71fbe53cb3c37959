import Verif.Lemmas.GofStat

/-!
The goodness-of-fit test on large samples, for fits that depend on the sample through Kendall's tau.
-/

namespace Copulae

open MeasureTheory ProbabilityTheory Finset Spec CopulaMeasure

variable {d n : ℕ} {σ ι : Type}

/-- A fitted copula `c` of law `lawOf c`: `cdf` is the distribution function of the law, which is within `ε` of that of `H`, and its
taus are within `ε` of `τ`. -/
structure FitNear (cdf : σ → ∀ {n : ℕ}, (Fin n → Fin d → ℝ) → Fin n → Fl) (lawOf : σ → Measure (Fin d → ℝ)) (τ : Fin d → Fin d → ℝ)
    (H : Measure (Fin d → ℝ)) (ε : ℝ) (c : σ) : Prop where
  prob : IsProbabilityMeasure (lawOf c)
  unif : Uniform (lawOf c)
  cdf_eq : ∀ {n : ℕ} (u : Fin n → Fin d → ℝ), (∀ i j, 0 < u i j ∧ u i j < 1) → ∀ i, cdf c u i = .fin (distFn (lawOf c) (u i))
  dist : ∀ w : Fin d → ℝ, (∀ j, 0 < w j ∧ w j < 1) → |distFn (lawOf c) w - distFn H w| ≤ ε
  tau : ∀ a b, a < b → |kendallTau (lawOf c) a b - τ a b| ≤ ε

/-- On samples with taus close to `τ`, the fit finds a copula close to the expected one. -/
def FitsAt (fit : ι → ∀ {n : ℕ}, (Fin n → Fin d → ℝ) → Except PyErr σ) (near : ℝ → σ → Prop) (τ : Fin d → Fin d → ℝ) : Prop :=
  ∀ ε : ℝ, 0 < ε → ∃ η : ℝ, 0 < η ∧ ∃ N : ℕ, ∀ (k : ι) (n : ℕ), N ≤ n → ∀ y : Fin n → Fin d → ℝ, TausNear τ η y →
    ∃ c, fit k (unitRanks y) = .ok c ∧ near ε c

/-- A fit, with the options `k`, that depends continuously on Kendall's taus where these are `τ`: there, it finds `H`. -/
structure TauFit (fit : ι → ∀ {n : ℕ}, (Fin n → Fin d → ℝ) → Except PyErr σ)
    (cdf : σ → ∀ {n : ℕ}, (Fin n → Fin d → ℝ) → Fin n → Fl) (lawOf : σ → Measure (Fin d → ℝ)) (τ : Fin d → Fin d → ℝ)
    (H : Measure (Fin d → ℝ)) (near : ℝ → σ → Prop) : Prop where
  mono : ∀ {ε ε' : ℝ} {c : σ}, ε ≤ ε' → near ε c → near ε' c
  close : ∀ ε : ℝ, 0 < ε → ∃ ε' : ℝ, 0 < ε' ∧ ∀ c, near ε' c → FitNear cdf lawOf τ H ε c
  fits : FitsAt fit near τ

theorem FitsAt.congr {fit : ι → ∀ {n : ℕ}, (Fin n → Fin d → ℝ) → Except PyErr σ} {near : ℝ → σ → Prop} {τ τ' : Fin d → Fin d → ℝ}
    (h : FitsAt fit near τ) (he : ∀ a b, a < b → τ' a b = τ a b) : FitsAt fit near τ' := fun ε hε => by
  obtain ⟨η, hη, N, hN⟩ := h ε hε
  exact ⟨η, hη, N, fun k n hn y hy => hN k n hn y ⟨hy.1, fun a b hab => by rw [← he a b hab]; exact hy.2 a b hab⟩⟩

theorem iid_transfer {Q P : Measure (Fin d → ℝ)} [IsProbabilityMeasure Q] (hQ : Atomless Q) (hc : HasCopula Q P)
    {good : (Fin n → Fin d → ℝ) → Prop} {δ : ENNReal} (h : iid n P {y | ¬ good y} ≤ δ) :
    iid n Q {x | ¬ (NoTies x ∧ ∃ y : Fin n → Fin d → ℝ, (∀ i k j, x i j < x k j → y i j ≤ y k j) ∧ good y)} ≤ δ := by
  obtain ⟨F, hF, hFQ⟩ := hc
  have hFm : Measurable fun (x : Fin d → ℝ) j => F j (x j) :=
    measurable_pi_lambda _ fun j => (hF j).measurable.comp (measurable_pi_apply j)
  set φ : (Fin n → Fin d → ℝ) → Fin n → Fin d → ℝ := fun x i j => F j (x i j) with hφ
  have hφm : Measurable φ := measurable_pi_lambda _ fun i => hFm.comp (measurable_pi_apply i)
  have hφQ : (iid n Q).map φ = iid n P := by
    have h := Measure.pi_map_pi (μ := fun _ : Fin n => Q) (f := fun _ (x : Fin d → ℝ) j => F j (x j)) fun _ => hFm.aemeasurable
    rw [hFQ] at h
    exact h
  have hsub : {x : Fin n → Fin d → ℝ | ¬ (NoTies x ∧ ∃ y : Fin n → Fin d → ℝ, (∀ i k j, x i j < x k j → y i j ≤ y k j) ∧ good y)} ⊆
      {x | ¬ NoTies x} ∪ φ ⁻¹' {y | ¬ good y} := by
    intro x hx
    by_contra hcon
    rw [Set.mem_union, not_or] at hcon
    exact hx ⟨not_not.mp hcon.1, φ x, fun i k j hik => hF j hik.le, not_not.mp hcon.2⟩
  refine (measure_mono hsub).trans ((measure_union_le _ _).trans ?_)
  rw [show iid n Q {x | ¬ NoTies x} = 0 from ae_iff.mp (noTies_ae hQ), zero_add]
  exact (Measure.le_map_apply hφm.aemeasurable _).trans (by rw [hφQ]; exact h)

section
variable {fit : ι → ∀ {n : ℕ}, (Fin n → Fin d → ℝ) → Except PyErr σ} {cdf : σ → ∀ {n : ℕ}, (Fin n → Fin d → ℝ) → Fin n → Fl}
  {lawOf : σ → Measure (Fin d → ℝ)} {τ : Fin d → Fin d → ℝ} {H : Measure (Fin d → ℝ)} {near : ℝ → σ → Prop}

theorem gofFit_near {P : Measure (Fin d → ℝ)} [IsProbabilityMeasure P] [IsProbabilityMeasure H] (hP : Uniform P) (hH : Uniform H)
    (hn : 0 < n) {ε : ℝ} (hε : 0 < ε) (hnε : 1 / ((n : ℝ) + 1) ≤ ε) {x y : Fin n → Fin d → ℝ} (hx : NoTies x) (hy : NoTies y)
    (hxy : ∀ i k j, x i j < x k j → y i j ≤ y k j) (hcl : CloseTo P ε y) {k : ι} {c : σ} (hfit : fit k (unitRanks y) = .ok c)
    (hc : FitNear cdf lawOf τ H ε c) {ties fitTies : String} {t t' : TieMethod} (ht : parseTies ties = .ok t)
    (ht' : parseTies fitTies = .ok t') : ∃ s, gofFit (fit k) (fun c => cdf c) x ties fitTies = .ok (c, .fin s) ∧ 0 ≤ s ∧
      |s - ∑ i, gap P H (y i) ^ 2| ≤ n * ((2 + 9 * d) * ε * (2 + (2 + 9 * d) * ε)) := by
  obtain ⟨s, h1, h2, h3⟩ := gofTStat_near hP hH hn hε hnε hcl (hc.cdf_eq (unitRanks y) (unitRanks_mem hy)) (ε' := ε)
    fun i => hc.dist _ (unitRanks_mem hy i)
  refine ⟨s, ?_, h2, ?_⟩
  · unfold gofFit
    rw [gofData_noTies hx hy hxy ht ht']
    simp only [bind, Except.bind, pure, Except.pure, hfit, h1]
  · rwa [show ε + 9 * d * ε + ε = (2 + 9 * d) * ε by ring] at h3

theorem small_sq {m D : ℝ} (hm : 0 < m) (hm1 : m ≤ 1) (hD : 2 ≤ D) : D * (m / (8 * D)) * (2 + D * (m / (8 * D))) ≤ m / 2 := by
  have e : D * (m / (8 * D)) = m / 8 := by
    field_simp
  rw [e]
  nlinarith

/-- The statistic per observation converges. -/
theorem gof_stat_law {Q P : Measure (Fin d → ℝ)} [IsProbabilityMeasure Q] [IsProbabilityMeasure P] [IsProbabilityMeasure H]
    (hP : Uniform P) (hH : Uniform H) (hQ : Atomless Q) (hc : HasCopula Q P) (hf : TauFit fit cdf lawOf τ H near)
    (hp : FitsAt fit near (kendallTau P)) {ε δ : ℝ} (hε : 0 < ε) (hδ : 0 < δ) : ∃ N : ℕ, ∀ n, N ≤ n →
    iid n Q {x | ¬ (NoTies x ∧ ∀ (k : ι) (ties fitTies : String) (t t' : TieMethod), parseTies ties = .ok t →
      parseTies fitTies = .ok t' → ∃ c s, gofFit (fit k) (fun c => cdf c) x ties fitTies = .ok (c, .fin s) ∧ near ε c ∧ 0 ≤ s ∧
        |s / n - misfit P H| ≤ ε)} ≤ ENNReal.ofReal δ := by
  set m := min 1 ε with hm
  have hm0 : 0 < m := lt_min one_pos hε
  set D : ℝ := 2 + 9 * d with hD
  have hD2 : 2 ≤ D := by have : (0 : ℝ) ≤ d := Nat.cast_nonneg d; linarith
  set ε1 := m / (8 * D) with hε1
  have hε10 : 0 < ε1 := by positivity
  obtain ⟨ε2, hε2, hnear⟩ := hf.close ε1 hε10
  obtain ⟨η, hη, N0, hfit⟩ := hp (min ε ε2) (lt_min hε hε2)
  obtain ⟨N1, h1⟩ := sample_likely (d := d) hε10 hη (half_pos hδ)
  obtain ⟨N2, h2⟩ := exists_nat_gt (1 / ε1)
  obtain ⟨N3, h3⟩ := exists_nat_gt (4 * 1 ^ 2 / (δ / 2 * (ε / 2) ^ 2))
  refine ⟨N0 + N1 + N2 + N3 + 2, fun n hn => ?_⟩
  have hn' : (0 : ℝ) < n := by exact_mod_cast (by omega : 0 < n)
  have hmean : iid n P {y | ¬ |(∑ i, gap P H (y i) ^ 2) / n - misfit P H| < ε / 2} ≤ ENNReal.ofReal (δ / 2) := by
    refine (measure_mono fun y hy => not_lt.mp hy).trans ((mean_close (P := P) (h := fun w => gap P H w ^ 2)
      ((gap_continuous hP hH).pow 2).measurable one_pos (fun w => by rw [abs_pow]; exact pow_le_one₀ (abs_nonneg _) (gap_le P H w))
      (by omega : 2 ≤ n) (half_pos hε)).trans (ENNReal.ofReal_le_ofReal ?_))
    have hn1 : (N3 : ℝ) + 1 ≤ n - 1 := by
      have : (N3 : ℝ) + 2 ≤ n := by exact_mod_cast (by omega : N3 + 2 ≤ n)
      linarith
    have hN0 : (0 : ℝ) ≤ N3 := Nat.cast_nonneg N3
    rw [div_lt_iff₀ (by positivity)] at h3
    rw [div_le_iff₀ (mul_pos (by linarith) (by positivity))]
    have : (N3 : ℝ) * (δ / 2 * (ε / 2) ^ 2) ≤ (n - 1) * (δ / 2 * (ε / 2) ^ 2) := mul_le_mul_of_nonneg_right (by linarith) (by positivity)
    linarith
  have hgood : iid n P {y | ¬ ((CloseTo P ε1 y ∧ TausNear (kendallTau P) η y) ∧ |(∑ i, gap P H (y i) ^ 2) / n - misfit P H| < ε / 2)} ≤
      ENNReal.ofReal δ := by
    refine (measure_mono (t := {y | ¬ (CloseTo P ε1 y ∧ TausNear (kendallTau P) η y)} ∪
      {y | ¬ |(∑ i, gap P H (y i) ^ 2) / n - misfit P H| < ε / 2}) fun y hy => ?_).trans ((measure_union_le _ _).trans
        ((add_le_add (h1 P hP n (by omega)) hmean).trans ?_))
    · by_contra hcon
      rw [Set.mem_union, not_or] at hcon
      exact hy ⟨not_not.mp hcon.1, not_not.mp hcon.2⟩
    · rw [← ENNReal.ofReal_add (by positivity) (by positivity), add_halves]
  refine (measure_mono fun x hx => ?_).trans (iid_transfer hQ hc hgood)
  intro hg
  refine hx ?_
  obtain ⟨hnt, y, hxy, ⟨hcl, hty⟩, hav⟩ := hg
  refine ⟨hnt, fun k ties fitTies t t' ht ht' => ?_⟩
  obtain ⟨c, hcf, hcn⟩ := hfit k n (by omega) y hty
  have hnε : 1 / ((n : ℝ) + 1) ≤ ε1 := by
    have hn2' : (N2 : ℝ) ≤ n := by exact_mod_cast (by omega : N2 ≤ n)
    rw [div_lt_iff₀ hε10] at h2
    rw [div_le_iff₀ (by positivity)]
    nlinarith
  obtain ⟨s, hs, hs0, hsn⟩ := gofFit_near hP hH (by omega) hε10 hnε hnt hty.1 hxy hcl hcf
    (hnear c (hf.mono (min_le_right _ _) hcn)) ht ht'
  refine ⟨c, s, hs, hf.mono (min_le_left _ _) hcn, hs0, ?_⟩
  have h5 : |s / n - (∑ i, gap P H (y i) ^ 2) / n| ≤ m / 2 := by
    rw [← sub_div, abs_div, abs_of_pos hn', div_le_iff₀ hn']
    have := mul_le_mul_of_nonneg_left (small_sq hm0 (min_le_left _ _) hD2) hn'.le
    linarith
  have h6 := abs_sub_le (s / n) ((∑ i, gap P H (y i) ^ 2) / n) (misfit P H)
  have : m ≤ ε := min_le_right _ _
  linarith

theorem gofPValue_least {ts : List Fl} {s : ℝ} (hs : 0 ≤ s) (h : ∀ r ∈ ts, ∃ t : ℝ, r = .fin t ∧ 0 ≤ t ∧ t < s) (reps : ℤ) :
    gofPValue ts (.fin s) reps = 0.5 / (reps + 1) := by
  unfold gofPValue
  rw [List.countP_eq_zero.mpr fun r hr => ?_]
  · simp
  · obtain ⟨t, rfl, h0, h1⟩ := h r hr
    simpa [Fl.abs, abs_of_nonneg hs, abs_of_nonneg h0] using h1

/-- Where the law of the data differs from the one the fit finds, the p-value is the least. -/
theorem gof_rejects_law {Q P : Measure (Fin d → ℝ)} [IsProbabilityMeasure Q] [IsProbabilityMeasure P] [IsProbabilityMeasure H]
    (hP : Uniform P) (hH : Uniform H) (hQ : Atomless Q) (hc : HasCopula Q P) (hf : TauFit fit cdf lawOf τ H near)
    (hp : FitsAt fit near (kendallTau P)) (hM : 0 < misfit P H) {reps : ℤ} (hr : 1 ≤ reps) {ε δ ρ : ℝ} (hε : 0 < ε)
    (hδ : 0 < δ) (hρ : 0 < ρ) : ∃ N : ℕ, ∀ n, N ≤ n → ∀ (k : ι) (ties fitTies : String) (t t' : TieMethod),
    parseTies ties = .ok t → parseTies fitTies = .ok t' → ∀ (Ω : Type) (_ : MeasurableSpace Ω) (Z : Measure Ω)
      (rnd : Ω → σ → ℕ → Fin n → Fin d → ℝ), (∀ c, near ρ c → ∀ j, Z.map (fun ω => rnd ω c j) = iid n (lawOf c)) →
      iid n Q {x | ¬ Z {ω | ¬ ∃ c s, gofCopula (fit k) (fun c => cdf c) (rnd ω) x reps ties fitTies =
          .ok (c, .fin s, 0.5 / (reps + 1)) ∧ near ε c ∧ misfit P H / 2 * n ≤ s} ≤ ENNReal.ofReal δ} ≤ ENNReal.ofReal δ := by
  set M := misfit P H with hMdef
  set m := min 1 (M / 4) with hm
  have hm0 : 0 < m := lt_min one_pos (by positivity)
  set D : ℝ := 2 + 9 * d with hD
  have hD2 : 2 ≤ D := by have : (0 : ℝ) ≤ d := Nat.cast_nonneg d; linarith
  set ε1 := m / (8 * D) with hε1
  have hε10 : 0 < ε1 := by positivity
  obtain ⟨ε2, hε2, hnear⟩ := hf.close ε1 hε10
  obtain ⟨η, hη, N0, hfit⟩ := hf.fits ε2 hε2
  obtain ⟨ε4, hε4, hnear4⟩ := hf.close (min ε1 (η / 2)) (lt_min hε10 (half_pos hη))
  obtain ⟨ε3, hε3, h34, h3ρ⟩ : ∃ ε3, 0 < ε3 ∧ ε3 ≤ ε4 ∧ ε3 ≤ ρ := ⟨min ε4 ρ, lt_min hε4 hρ, min_le_left _ _, min_le_right _ _⟩
  have hnear3 := fun c (hc : near ε3 c) => hnear4 c (hf.mono h34 hc)
  obtain ⟨R, hR⟩ : ∃ R : ℝ, R = reps := ⟨_, rfl⟩
  have hR1 : 1 ≤ R := by rw [hR]; exact_mod_cast hr
  obtain ⟨N1, h1⟩ := gof_stat_law hP hH hQ hc hf hp (ε := min (min ε ε3) (M / 2)) (lt_min (lt_min hε hε3) (by positivity)) hδ
  obtain ⟨N2, h2⟩ := exists_nat_gt (1 / ε1)
  obtain ⟨N3, h3⟩ := sample_likely (d := d) hε10 (half_pos hη) (δ := δ / R) (by positivity)
  refine ⟨N0 + N1 + N2 + N3 + 1, fun n hn k ties fitTies t t' ht ht' Ω _ Z rnd hZ =>
    (measure_mono fun x hx => ?_).trans (h1 n (by omega))⟩
  have hn' : (0 : ℝ) < n := by exact_mod_cast (by omega : 0 < n)
  intro hg
  refine hx ?_
  obtain ⟨hnt, hg⟩ := hg
  obtain ⟨c, s, hs, hcn, hs0, hsM⟩ := hg k ties fitTies t t' ht ht'
  have hcn3 : near ε3 c := hf.mono ((min_le_left _ _).trans (min_le_right _ _)) hcn
  have hcnε : near ε c := hf.mono ((min_le_left _ _).trans (min_le_left _ _)) hcn
  have hsl : M / 2 * n ≤ s := by
    have := (abs_le.mp (hsM.trans (min_le_right _ _))).1
    have h4 : M / 2 ≤ s / n := by linarith
    rwa [le_div_iff₀ hn'] at h4
  have hF := hnear3 c hcn3
  have := hF.prob
  have hnε : 1 / ((n : ℝ) + 1) ≤ ε1 := by
    have hn2' : (N2 : ℝ) ≤ n := by exact_mod_cast (by omega : N2 ≤ n)
    rw [div_lt_iff₀ hε10] at h2
    rw [div_le_iff₀ (by positivity)]
    nlinarith
  -- a replicate
  have hrep : ∀ u : Fin n → Fin d → ℝ, CloseTo (lawOf c) ε1 u ∧ TausNear (kendallTau (lawOf c)) (η / 2) u →
      ∃ r : ℝ, gofReplicate (fit k) (fun c => cdf c) x u ties fitTies = .ok (.fin r) ∧ 0 ≤ r ∧ r < s := by
    rintro u ⟨hcl, hty⟩
    obtain ⟨c', hcf, hcn'⟩ := hfit k n (by omega) u ⟨hty.1, fun a b hab => by
      have b1 := hty.2 a b hab
      have b2 := (hF.tau a b hab).trans (min_le_right _ _)
      have b3 := abs_sub_le (sampleTau (fun i => u i a) fun i => u i b) (kendallTau (lawOf c) a b) (τ a b)
      linarith⟩
    obtain ⟨r, hr1, hr2, hr3⟩ := gofFit_near (P := lawOf c) hF.unif hH (by omega) hε10 hnε hty.1 hty.1 (fun i k j h => h.le) hcl hcf
      (hnear c' hcn') ht ht'
    refine ⟨r, ?_, hr2, ?_⟩
    · unfold gofReplicate
      simp only [anyTies_false hnt, Bool.false_eq_true, if_false, hr1, bind, Except.bind, pure, Except.pure]
    · have b1 : ∑ i, gap (lawOf c) H (u i) ^ 2 ≤ n * (m / 4) := by
        refine (sum_le_sum (g := fun _ => m / 4) fun i _ => ?_).trans (le_of_eq (by simp))
        have b2 := (hF.dist (u i) fun j => hcl.1 i j).trans (min_le_left _ _)
        have b3 : |gap (lawOf c) H (u i)| ≤ ε1 := b2
        have b4 : ε1 ≤ m / 4 := by
          rw [hε1]
          exact div_le_div_of_nonneg_left hm0.le (by norm_num) (by linarith)
        have b5 := gap_le (lawOf c) H (u i)
        rw [← sq_abs]
        nlinarith [abs_nonneg (gap (lawOf c) H (u i))]
      have b2 := (abs_le.mp hr3).2
      have b3 := mul_le_mul_of_nonneg_left (small_sq hm0 (min_le_left _ _) hD2) hn'.le
      have b4 : m ≤ M / 4 := min_le_right _ _
      have b5 : (n : ℝ) * m ≤ n * (M / 4) := mul_le_mul_of_nonneg_left b4 hn'.le
      have b6 : 0 < (n : ℝ) * M := mul_pos hn' hM
      linarith
  -- all replicates
  have hbad : ∀ j : ℕ, Z {ω | ¬ (CloseTo (lawOf c) ε1 (rnd ω c j) ∧ TausNear (kendallTau (lawOf c)) (η / 2) (rnd ω c j))} ≤
      ENNReal.ofReal (δ / R) := by
    intro j
    have hmap := hZ c (hf.mono h3ρ hcn3) j
    have : IsProbabilityMeasure (iid n (lawOf c)) := by unfold iid; infer_instance
    have hae : AEMeasurable (fun ω => rnd ω c j) Z := by
      by_contra hcon
      rw [Measure.map_of_not_aemeasurable hcon] at hmap
      exact IsProbabilityMeasure.ne_zero (iid n (lawOf c)) hmap.symm
    have := Measure.le_map_apply hae {u | ¬ (CloseTo (lawOf c) ε1 u ∧ TausNear (kendallTau (lawOf c)) (η / 2) u)}
    rw [hmap] at this
    exact this.trans (h3 (lawOf c) hF.unif n (by omega))
  refine (measure_mono (t := ⋃ j ∈ Finset.range reps.toNat, {ω | ¬ (CloseTo (lawOf c) ε1 (rnd ω c j) ∧
    TausNear (kendallTau (lawOf c)) (η / 2) (rnd ω c j))}) fun ω hω => ?_).trans ((measure_biUnion_finset_le _ _).trans
      ((sum_le_sum fun j _ => hbad j).trans ?_))
  · by_contra hcon
    simp only [Set.mem_iUnion, not_exists] at hcon
    refine hω ?_
    have hall : ∀ j, ∃ r : ℝ, j < reps.toNat →
        gofReplicate (fit k) (fun c => cdf c) x (rnd ω c j) ties fitTies = .ok (.fin r) ∧ 0 ≤ r ∧ r < s := fun j => by
      by_cases hj : j < reps.toNat
      · obtain ⟨r, hr⟩ := hrep _ (not_not.mp (hcon j (Finset.mem_range.mpr hj)))
        exact ⟨r, fun _ => hr⟩
      · exact ⟨0, fun h => absurd h hj⟩
    choose r hr using hall
    refine ⟨c, s, ?_, hcnε, hsl⟩
    unfold gofCopula
    simp only [hs, bind, Except.bind, pure, Except.pure]
    rw [mapM_ok _ (fun j => .fin (r j)) _ fun j hj => (hr j (List.mem_range.mp hj)).1]
    simp only [if_neg (by omega : ¬ reps + 1 = 0)]
    rw [gofPValue_least hs0 fun q hq => ?_]
    obtain ⟨j, hj, rfl⟩ := List.mem_map.mp hq
    exact ⟨r j, rfl, (hr j (List.mem_range.mp hj)).2⟩
  · rw [sum_const, card_range, nsmul_eq_mul, ← ENNReal.ofReal_natCast, ← ENNReal.ofReal_mul (Nat.cast_nonneg _)]
    refine ENNReal.ofReal_le_ofReal (le_of_eq ?_)
    have e : ((reps.toNat : ℕ) : ℝ) = R := by
      rw [hR]
      exact_mod_cast Int.toNat_of_nonneg (by omega : 0 ≤ reps)
    rw [e]
    field_simp

end

end Copulae
