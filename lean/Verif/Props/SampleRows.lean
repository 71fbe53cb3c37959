import Mathlib.Data.Finset.Sort
import Verif.Props.Seeding

/-!
C96: samples of mixtures and of empirical copulas are made of whole draws.
-/

namespace Copulae

section rank
variable {n : ℕ} (p : Fin n → Prop) [DecidablePred p]

/-- Number of earlier positions with the property. -/
def Spec.earlier (i : Fin n) : ℕ := (Finset.univ.filter fun j : Fin n => j < i ∧ p j).card

theorem earlier_lt {i : Fin n} (hi : p i) : Spec.earlier p i < (Finset.univ.filter p).card := by
  refine Finset.card_lt_card (Finset.ssubset_iff_of_subset ?_ |>.mpr ⟨i, by simp [hi], by simp⟩)
  intro j hj
  simp only [Finset.mem_filter, Finset.mem_univ, true_and] at hj ⊢
  exact hj.2

theorem earlier_strictMono {i j : Fin n} (hi : p i) (hij : i < j) : Spec.earlier p i < Spec.earlier p j := by
  refine Finset.card_lt_card (Finset.ssubset_iff_of_subset ?_ |>.mpr ⟨i, by simp [hi, hij], by simp⟩)
  intro k hk
  simp only [Finset.mem_filter, Finset.mem_univ, true_and] at hk ⊢
  exact ⟨hk.1.trans hij, hk.2⟩

theorem earlier_map : (Finset.univ.filter p).val.map (Spec.earlier p) =
    Multiset.range (Finset.univ.filter p).card := by
  have hinj : Set.InjOn (Spec.earlier p) (Finset.univ.filter p : Finset (Fin n)) := by
    intro a ha b hb h
    simp only [Finset.coe_filter, Finset.mem_univ, true_and, Set.mem_ofPred_eq] at ha hb
    rcases lt_trichotomy a b with hab | hab | hab
    · exact absurd h (earlier_strictMono p ha hab).ne
    · exact hab
    · exact absurd h (earlier_strictMono p hb hab).ne'
  have himg : (Finset.univ.filter p).image (Spec.earlier p) = Finset.range (Finset.univ.filter p).card := by
    refine Finset.eq_of_subset_of_card_le ?_ ?_
    · intro k hk
      obtain ⟨i, hi, rfl⟩ := Finset.mem_image.mp hk
      exact Finset.mem_range.mpr (earlier_lt p (by simpa using hi))
    · rw [Finset.card_range, Finset.card_image_of_injOn hinj]
  rw [← Finset.image_val_of_injOn hinj, himg]
  rfl

end rank

variable {G : Gen} {n k d : ℕ}

/-- The rows given to a cluster are the variates drawn for it, each used exactly once. -/
theorem gmmFill_rows (order : Fin n → ℕ) (c : ℕ) {m : ℕ} (hm : (Finset.univ.filter fun j => order j = c).card = m)
    (r : Fin m → Fin d → ℝ) (out : Fin n → Fin d → ℝ) :
    (Finset.univ.filter fun i => order i = c).val.map
        (gmmFill order c (fun i => if h : i < m then r ⟨i, h⟩ else 0) out) = Finset.univ.val.map r := by
  have e : (Finset.univ.filter fun i => order i = c).val.map
      (gmmFill order c (fun i => if h : i < m then r ⟨i, h⟩ else 0) out) =
      ((Finset.univ.filter fun i => order i = c).val.map (Spec.earlier fun i => order i = c)).map
        (fun i => if h : i < m then r ⟨i, h⟩ else 0) := by
    rw [Multiset.map_map]
    refine Multiset.map_congr rfl fun i hi => ?_
    have : order i = c := by simpa using hi
    unfold gmmFill
    rw [if_pos this]
    rfl
  rw [e, earlier_map, hm]
  have : (Finset.univ : Finset (Fin m)).val.map r = ((Finset.univ : Finset (Fin m)).val.map Fin.val).map
      (fun i => if h : i < m then r ⟨i, h⟩ else 0) := by
    rw [Multiset.map_map]
    refine Multiset.map_congr rfl fun i _ => ?_
    simp
  rw [this]
  congr 1
  have := congrArg Finset.val (Fin.map_valEmbedding_univ (n := m))
  rw [Finset.map_val, Nat.Iio_eq_range] at this
  exact this.symm

theorem gmmFill_other (order : Fin n → ℕ) (c : ℕ) (r : ℕ → Fin d → ℝ) (out : Fin n → Fin d → ℝ) {i : Fin n}
    (h : order i ≠ c) : gmmFill order c r out i = out i := by
  unfold gmmFill
  rw [if_neg h]

theorem gmm_loop (p : Mixture k d) (order : Fin n → ℕ) (l : List (Fin k)) (hl : l.Nodup)
    (out : Fin n → Fin d → ℝ) (σ : G.S) :
    ∃ out' σ', (l.foldlM (gmmCluster p order) out : Rnd G _).exec σ = (.ok out', σ') ∧
      (∀ c ∈ l, ∃ τ, (Finset.univ.filter fun i => order i = c).val.map out' =
        Finset.univ.val.map (G.mvn (Finset.univ.filter fun j => order j = c).card d (p.mean c) (p.cov c) τ).1) ∧
      ∀ i, (∀ c ∈ l, order i ≠ c) → out' i = out i := by
  induction l generalizing out σ with
  | nil => exact ⟨out, σ, rfl, by simp, fun _ _ => rfl⟩
  | cons a l ih =>
    rw [List.foldlM_cons, exec_bind]
    have h1 : (gmmCluster p order out a : Rnd G _).exec σ =
        (.ok (gmmFill order a (fun i => if h : i < (Finset.univ.filter fun j => order j = a).card then
          (G.mvn (Finset.univ.filter fun j => order j = a).card d (p.mean a) (p.cov a) σ).1 ⟨i, h⟩ else 0) out),
          (G.mvn (Finset.univ.filter fun j => order j = a).card d (p.mean a) (p.cov a) σ).2) := rfl
    rw [h1]
    obtain ⟨out', σ', e, h2, h3⟩ := ih (List.nodup_cons.mp hl).2 (gmmFill order a (fun i =>
      if h : i < (Finset.univ.filter fun j => order j = a).card then
          (G.mvn (Finset.univ.filter fun j => order j = a).card d (p.mean a) (p.cov a) σ).1 ⟨i, h⟩ else 0) out)
      (G.mvn (Finset.univ.filter fun j => order j = a).card d (p.mean a) (p.cov a) σ).2
    refine ⟨out', σ', e, ?_, ?_⟩
    · intro c hc
      rcases List.mem_cons.mp hc with rfl | hc
      · refine ⟨σ, ?_⟩
        rw [← gmmFill_rows order c rfl _ out]
        refine Multiset.map_congr rfl fun i hi => h3 i fun c' hc' h => ?_
        have hi' : order i = c := by simpa using hi
        have : c' = c := Fin.ext (h.symm.trans hi')
        exact (List.nodup_cons.mp hl).1 (this ▸ hc')
      · exact h2 c hc
    · intro i hi
      rw [h3 i fun c hc => hi c (List.mem_cons_of_mem _ hc), gmmFill_other _ _ _ _ (hi a List.mem_cons_self)]

/-- C96: the latent sample of a Gaussian mixture copula. The clusters of the rows are those drawn, and for
every cluster its rows are exactly the normal variates drawn with the mean and covariance of the cluster,
each used once. -/
theorem randomGmm_rows (p : Mixture k d) (n : ℕ) (σ : G.S) :
    ∃ out σ', (randomGmm p n : Rnd G _).exec σ = (.ok out, σ') ∧
      ∀ c : Fin k, ∃ τ, (Finset.univ.filter fun i => (G.choice k n p.prob σ).1 i = c).val.map out =
        Finset.univ.val.map (G.mvn (Finset.univ.filter fun j => (G.choice k n p.prob σ).1 j = c).card d
          (p.mean c) (p.cov c) τ).1 := by
  obtain ⟨out, σ', e, h, -⟩ := gmm_loop (G := G) p (G.choice k n p.prob σ).1 (List.finRange k)
    (List.nodup_finRange k) (fun _ _ => 0) (G.choice k n p.prob σ).2
  refine ⟨out, σ', ?_, fun c => h c (List.mem_finRange c)⟩
  unfold randomGmm
  rw [exec_bind, exec_draw]
  exact e

/-- C96: the sample of the copula is the latent sample under the marginal distribution functions. -/
theorem gmcRandom_rows (cdf : Mixture k d → Fin d → ℝ → Fl) (p : Mixture k d) (n : ℕ) (σ : G.S) :
    ∃ out σ', (gmcRandomG cdf p n none : Rnd G _).exec σ = (.ok fun i j => cdf p j (out i j), σ') ∧
      ∀ c : Fin k, ∃ τ, (Finset.univ.filter fun i => (G.choice k n p.prob σ).1 i = c).val.map out =
        Finset.univ.val.map (G.mvn (Finset.univ.filter fun j => (G.choice k n p.prob σ).1 j = c).card d
          (p.mean c) (p.cov c) τ).1 := by
  obtain ⟨out, σ', e, h⟩ := randomGmm_rows (G := G) p n σ
  refine ⟨out, σ', ?_, h⟩
  unfold gmcRandomG
  rw [exec_bind, exec_seed_none]
  simp only
  rw [exec_bind, e]
  rfl

/-- C96: every row of a sample of an empirical copula is a row of the data. -/
theorem empiricalRandom_rows {m : ℕ} (data : Fin m → Fin d → ℝ) (n : ℕ) (seed : Option ℤ) (σ : G.S)
    {out : Fin n → Fin d → Fl} {σ' : G.S}
    (h : (empiricalRandomG data n seed : Rnd G _).exec σ = (.ok out, σ')) (i : Fin n) :
    ∃ k, ∀ j, out i j = .fin (data k j) := by
  unfold empiricalRandomG at h
  rw [exec_bind] at h
  rcases hs : (seedGlobal seed : Rnd G Unit).exec σ with ⟨r | r, τ⟩
  all_goals rw [hs] at h
  · simp at h
  · simp only [exec_bind, exec_draw] at h
    split_ifs at h with hk
    · rw [exec_pure] at h
      have := (Prod.mk.inj h).1
      have := Except.ok.inj this
      exact ⟨_, fun j => (congrFun (congrFun this i) j).symm⟩
    · rw [exec_throw] at h
      simp at h

example := empiricalRandom_rows (G := countGen) (m := 3) (d := 2) (fun i j => i.val + j.val) 4 none (0 : ℕ) rfl 2

end Copulae
