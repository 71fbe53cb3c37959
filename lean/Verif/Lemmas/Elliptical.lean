import Mathlib.Tactic.NormNum
import Mathlib.Tactic.Linarith
import Mathlib.Tactic.Ring
import Mathlib.Algebra.Order.BigOperators.Group.Finset
import Mathlib.Algebra.BigOperators.Ring.Finset
import Verif.Model.Elliptical
import Verif.Lemmas.CovMatrix

namespace Copulae

open Classical

/-- Well-formed state: at least two dimensions and `d(d-1)/2` correlations. -/
def Ell.WF (s : Ell) : Prop := 2 ≤ s.dim ∧ s.rhos.length = s.dim * (s.dim - 1) / 2

theorem Ell.init_wf {d : ℕ} (hd : 2 ≤ d) : (Ell.init d).WF := ⟨hd, by simp [Ell.init]⟩

/-- The correlation matrix of a well-formed state. -/
theorem Ell.sigma_ok {s : Ell} (hs : s.WF) :
    ∃ M : SqMat Fl s.dim, s.sigma = .ok ⟨s.dim, M⟩ ∧ (∀ i, M i i = .fin 1) ∧
      (∀ i j, M i j = M j i) ∧
      ∀ i j : Fin s.dim, i < j → s.rhos[rhoPos s.dim i j]? = some (M i j) := by
  obtain ⟨M, h1, h2, h3⟩ := createCovMatrix_ok (by have := hs.1; omega) s.rhos hs.2
  refine ⟨M, h1, h2, ?_, fun i j h => (h3 i j h).1⟩
  intro i j
  rcases lt_trichotomy i j with h | h | h
  · have := h3 i j h
    rw [this.1] at this
    simpa using this.2
  · rw [h]
  · have := h3 j i h
    rw [this.1] at this
    simpa using this.2.symm

theorem list_ext_rho {α : Type} {d : ℕ} {l l' : List α} (h : l.length = d * (d - 1) / 2)
    (h' : l'.length = d * (d - 1) / 2)
    (he : ∀ i j : ℕ, i < j → j < d → l[rhoPos d i j]? = l'[rhoPos d i j]?) : l = l' := by
  apply List.ext_getElem?
  intro k
  by_cases hk : k < d * (d - 1) / 2
  · obtain ⟨i, j, hij, hj, rfl⟩ := rhoPos_surj hk
    exact he i j hij hj
  · rw [List.getElem?_eq_none (by omega), List.getElem?_eq_none (by omega)]

/-- Reading the lower triangle of the matrix of a state gives its vector. -/
theorem readLower_sigma {s : Ell} (hs : s.WF) {M : SqMat Fl s.dim}
    (hM : s.sigma = .ok ⟨s.dim, M⟩) :
    (do fancyRead M (← triIndices s.dim 1 "lower")) = .ok s.rhos := by
  obtain ⟨M', h1, -, h3, h4⟩ := Ell.sigma_ok hs
  rw [hM] at h1
  simp only [Except.ok.injEq, Sigma.mk.injEq, heq_eq_eq, true_and] at h1
  subst h1
  obtain ⟨l, hl, hlen, hent⟩ := readLower_ok M
  rw [hl]
  congr 1
  apply list_ext_rho hlen hs.2
  intro i j hij hj
  have a := hent ⟨i, hij.trans hj⟩ ⟨j, hj⟩ (by simpa using hij)
  have b := h4 ⟨i, hij.trans hj⟩ ⟨j, hj⟩ (by simpa using hij)
  simp only at a b
  rw [a, b, h3]

theorem closeTo_mono {t t' : ℝ} (h : t ≤ t') {a b : Fl} (hab : closeTo t a b) :
    closeTo t' a b := by
  cases a <;> cases b <;> simp_all [closeTo]
  linarith

theorem isSymmetric_mono {d : ℕ} {M : SqMat Fl d} {t t' : ℝ} (h : t ≤ t')
    (hM : isSymmetric M t) : isSymmetric M t' := fun i j => closeTo_mono h (hM i j)

theorem nearPsd_square {ext : CovNearest} {d : ℕ} (M : SqMat Fl d) :
    nearPsd ext (.mat d d M) =
      if isSymmetric M 1e-8 then (if isPsd M then .ok ⟨d, M⟩ else .ok ⟨d, ext d M⟩)
      else .error .nonSymmetric := by
  simp [nearPsd]

theorem nearPsd_psd {ext : CovNearest} {d : ℕ} {M : SqMat Fl d} (h : isPsd M) :
    nearPsd ext (.mat d d M) = .ok ⟨d, M⟩ := by
  rw [nearPsd_square, if_pos (isSymmetric_mono (by norm_num) h.1), if_pos h]

/-- Nothing is repaired when the matrix already passes the test. -/
theorem forcePsd_of_psd {ext : CovNearest} {s : Ell} (hs : s.WF) {M : SqMat Fl s.dim}
    (hM : s.sigma = .ok ⟨s.dim, M⟩) (h : isPsd M) : s.forcePsd ext = (s, .ok ()) := by
  unfold Ell.forcePsd
  rw [hM]
  simp only [nearPsd_psd h, readLower_sigma hs hM]

theorem idxOf_map_swap (l : List (ℕ × ℕ)) (a b : ℕ) :
    (l.map Prod.swap).idxOf (b, a) = l.idxOf (a, b) := by
  induction l with
  | nil => rfl
  | cons c l ih =>
    rw [List.map_cons, List.idxOf_cons, List.idxOf_cons, ih]
    congr 1
    rw [beq_eq_decide, beq_eq_decide]
    obtain ⟨p, q⟩ := c
    simp only [Prod.swap_prod_mk, Prod.mk.injEq, and_comm]

/-- `_get_rho_index` in terms of the position in the upper triangle. -/
theorem getRhoIndex_ok {d x y : ℕ} (hx : x < d) (hy : y < d) (hxy : x ≠ y) :
    getRhoIndex d x y = .ok (rhoPos d (min x y) (max x y)) := by
  unfold getRhoIndex
  rw [if_neg (by omega), if_neg (by omega), if_neg (by omega)]
  have hfind : ∀ (l : List (ℕ × ℕ)) (a : ℕ × ℕ), a ∈ l →
      l.findIdx? (fun v => decide (v = a)) = some (l.idxOf a) := by
    intro l a ha
    rw [List.idxOf, List.findIdx?_eq_some_iff_findIdx_eq]
    refine ⟨?_, ?_⟩
    · have := List.idxOf_lt_length_of_mem ha
      simpa [List.idxOf] using this
    · congr 1
      funext v
      exact (beq_eq_decide v a).symm
  rcases lt_or_gt_of_ne hxy with h | h
  · rw [if_pos (by exact_mod_cast h), triIndices_upper]
    simp only [bind, Except.bind, zip_fst_snd]
    have := hfind (triLoop d 1) (x, y) (mem_triLoop.2 ⟨h, hy⟩)
    simp only [Int.toNat_natCast, this]
    rw [min_eq_left h.le, max_eq_right h.le, rhoPos]
  · rw [if_neg (by push Not; exact_mod_cast h.le), triIndices_lower]
    simp only [bind, Except.bind, zip_snd_fst]
    have hm : (y, x) ∈ triLoop d 1 := mem_triLoop.2 ⟨h, hx⟩
    have := hfind ((triLoop d 1).map Prod.swap) (x, y) (by
      simp only [List.mem_map, Prod.exists, Prod.swap_prod_mk, Prod.mk.injEq]
      exact ⟨y, x, hm, rfl, rfl⟩)
    simp only [Int.toNat_natCast, this]
    rw [min_eq_right h.le, max_eq_left h.le, rhoPos]
    congr 1
    exact idxOf_map_swap _ y x

theorem getRhoIndex_error {d : ℕ} {x y : ℤ}
    (h : x < 0 ∨ y < 0 ∨ (d : ℤ) ≤ x ∨ (d : ℤ) ≤ y ∨ x = y) :
    getRhoIndex d x y = .error .indexError := by
  unfold getRhoIndex
  split_ifs <;> first | rfl | (exfalso; omega)

theorem getItem_pair {s : Ell} {M : SqMat Fl s.dim} (hM : s.sigma = .ok ⟨s.dim, M⟩)
    (i j : Fin s.dim) :
    s.getItem (.tuple [.int i, .int j]) = .ok (.scalar (M i j)) := by
  have hp : ∀ k : Fin s.dim, npPos s.dim (k : ℤ) = .ok k.val := by
    intro k
    unfold npPos
    rw [if_pos ⟨by omega, by exact_mod_cast k.2⟩]
    simp
  simp only [Ell.getItem, hM, bind, Except.bind, hp, pure, Except.pure]
  rw [dif_pos ⟨i.2, j.2⟩]

/-- Matrix of a state after one correlation has been overwritten. -/
theorem sigma_set {s : Ell} (hs : s.WF) {M : SqMat Fl s.dim} (hM : s.sigma = .ok ⟨s.dim, M⟩)
    {i j : ℕ} (hi : i < s.dim) (hj : j < s.dim) (hij : i ≠ j) (v : Fl) :
    Ell.sigma ⟨s.dim, s.rhos.set (rhoPos s.dim (min i j) (max i j)) v⟩
      = .ok ⟨s.dim, setCell (setCell M (i, j) v) (j, i) v⟩ := by
  have hs' : Ell.WF ⟨s.dim, s.rhos.set (rhoPos s.dim (min i j) (max i j)) v⟩ :=
    ⟨hs.1, by simpa using hs.2⟩
  obtain ⟨M', h1, h2, h3, h4⟩ := Ell.sigma_ok hs'
  obtain ⟨M0, k1, k2, k3, k4⟩ := Ell.sigma_ok hs
  rw [hM] at k1
  simp only [Except.ok.injEq, Sigma.mk.injEq, heq_eq_eq, true_and] at k1
  subst k1
  rw [h1]
  simp only [Except.ok.injEq, Sigma.mk.injEq, heq_eq_eq, true_and]
  have hlt : rhoPos s.dim (min i j) (max i j) < s.rhos.length := by
    rw [hs.2]; exact rhoPos_lt (by omega) (by omega)
  have key : ∀ a b : Fin s.dim, a < b → M' a b = setCell (setCell M (i, j) v) (j, i) v a b := by
    intro a b hab
    have e := h4 a b hab
    simp only [List.getElem?_set] at e
    have hab' : a.val < b.val := hab
    by_cases hp : rhoPos s.dim (min i j) (max i j) = rhoPos s.dim a b
    · rw [if_pos hp, if_pos hlt] at e
      have := rhoPos_inj (by omega : min i j < max i j) (by omega) hab' b.2 hp
      simp only [Option.some.injEq] at e
      rw [← e]
      simp only [setCell, Prod.mk.injEq]
      split_ifs with c1 c2
      · rfl
      · rfl
      · exfalso; omega
    · rw [if_neg hp, k4 a b hab] at e
      simp only [Option.some.injEq] at e
      rw [← e]
      simp only [setCell, Prod.mk.injEq]
      split_ifs with c1 c2
      · exfalso; apply hp; rw [c1.1, c1.2, min_eq_right (by omega), max_eq_left (by omega)]
      · exfalso; apply hp; rw [c2.1, c2.2, min_eq_left (by omega), max_eq_right (by omega)]
      · rfl
  have symm : ∀ a b : Fin s.dim, setCell (setCell M (i, j) v) (j, i) v a b
      = setCell (setCell M (i, j) v) (j, i) v b a := by
    intro a b
    simp only [setCell, Prod.mk.injEq, k3 a b]
    split_ifs <;> first | rfl | (exfalso; omega)
  funext a b
  rcases lt_trichotomy a b with h | h | h
  · exact key a b h
  · subst h
    rw [h2]
    simp only [setCell, Prod.mk.injEq]
    rw [if_neg (by omega), if_neg (by omega), k2]
  · rw [h3, symm]; exact key b a h

/-! ### Invariants -/

theorem readLower_wf {d : ℕ} (hd : 2 ≤ d) {C : SqMat Fl d} {l : List Fl}
    (h : (do fancyRead C (← triIndices d 1 "lower")) = .ok l) : Ell.WF ⟨d, l⟩ := by
  obtain ⟨l', h1, h2, -⟩ := readLower_ok C
  rw [h] at h1
  simp only [Except.ok.injEq] at h1
  subst h1
  exact ⟨hd, h2⟩

theorem setSlice_wf {ext : CovNearest} {s : Ell} (hs : s.WF) (v : PyVal) :
    (s.setSlice ext v).1.WF ∧ (s.setSlice ext v).1.dim = s.dim := by
  unfold Ell.setSlice
  split
  · exact ⟨hs, rfl⟩
  · rename_i k M h
    split_ifs with hk
    · exact ⟨hs, rfl⟩
    · push Not at hk
      subst hk
      split
      · exact ⟨hs, rfl⟩
      · rename_i l hl
        exact ⟨readLower_wf hs.1 hl, rfl⟩

theorem nearPsd_dim {ext : CovNearest} {d : ℕ} {M : SqMat Fl d} {C : Σ k : ℕ, SqMat Fl k}
    (h : nearPsd ext (.mat d d M) = .ok C) : C.1 = d := by
  rw [nearPsd_square] at h
  split_ifs at h <;> (simp only [Except.ok.injEq] at h; rw [← h])

theorem forcePsd_wf {ext : CovNearest} {s : Ell} (hs : s.WF) :
    (s.forcePsd ext).1.WF ∧ (s.forcePsd ext).1.dim = s.dim := by
  obtain ⟨M, h1, -⟩ := Ell.sigma_ok hs
  unfold Ell.forcePsd
  rw [h1]
  simp only
  split
  · exact ⟨hs, rfl⟩
  · rename_i k C hC
    have hk := nearPsd_dim hC
    simp only at hk
    subst hk
    split
    · exact ⟨hs, rfl⟩
    · rename_i l hl
      exact ⟨readLower_wf hs.1 hl, rfl⟩

theorem storeCell_length {rhos : List Fl} {p : ℕ} {row l : List Fl}
    (h : storeCell rhos p row = .ok l) : l.length = rhos.length := by
  unfold storeCell at h
  split at h
  · simp only [Except.ok.injEq] at h; rw [← h]; simp
  · simp at h

theorem rowLoop_length (d : ℕ) (pair : ℕ → ℤ × ℤ) (vs : List (List Fl)) :
    ∀ (i : ℕ) (rhos : List Fl), (rowLoop d pair i vs rhos).1.length = rhos.length := by
  induction vs with
  | nil => intro i rhos; rfl
  | cons v vs ih =>
    intro i rhos
    unfold rowLoop
    split_ifs
    · exact ih _ _
    · split
      · rfl
      · rename_i r hr
        rw [ih]
        cases hg : getRhoIndex d (pair i).1 (pair i).2 with
        | error e => simp [hg, bind, Except.bind] at hr
        | ok p =>
          simp only [hg, bind, Except.bind] at hr
          exact storeCell_length hr

theorem setRow_wf {ext : CovNearest} {s : Ell} (hs : s.WF) (pair : ℕ → ℤ × ℤ) (v : PyVal) :
    (s.setRow ext pair v).1.WF ∧ (s.setRow ext pair v).1.dim = s.dim := by
  unfold Ell.setRow
  split_ifs
  · exact ⟨hs, rfl⟩
  · have hw : Ell.WF ⟨s.dim, (rowLoop s.dim pair 0 (v.rows s.dim) s.rhos).1⟩ :=
      ⟨hs.1, by rw [rowLoop_length]; exact hs.2⟩
    simp only
    split
    · exact ⟨hw, rfl⟩
    · exact forcePsd_wf hw

theorem setItem_wf {ext : CovNearest} {s : Ell} (hs : s.WF) (ix : Ix) (v : PyVal) :
    (s.setItem ext ix v).1.WF ∧ (s.setItem ext ix v).1.dim = s.dim := by
  unfold Ell.setItem
  split_ifs
  rotate_left
  · exact ⟨hs, rfl⟩
  · split
    · exact setSlice_wf hs v
    · split
      · exact ⟨hs, rfl⟩
      · rename_i k _ l hl
        have hlen : l.length = s.rhos.length := by
          cases hg : npPos s.rhos.length k with
          | error e => simp [hg, bind, Except.bind] at hl
          | ok p =>
            simp only [hg, bind, Except.bind] at hl
            exact storeCell_length hl
        exact forcePsd_wf (s := ⟨s.dim, l⟩) ⟨hs.1, by rw [hlen]; exact hs.2⟩
    · exact setSlice_wf hs v
    · exact setRow_wf hs _ v
    · exact setRow_wf hs _ v
    · split
      · exact ⟨hs, rfl⟩
      · split
        · exact forcePsd_wf (s := ⟨s.dim, _⟩) ⟨hs.1, by simpa using hs.2⟩
        · exact ⟨hs, rfl⟩
    · exact ⟨hs, rfl⟩

/-! ### Positive semi-definiteness after success -/

/-- Replacing the diagonal of a matrix that passes the test by ones keeps it passing, as long as
no diagonal entry exceeded one. -/
theorem eigAtLeast_unitDiag {d : ℕ} {C S : SqMat Fl d} {t : ℝ} (hC : eigAtLeast C t)
    (hd : ∀ i, C i i ≤ .fin 1) (hS1 : ∀ i, S i i = .fin 1) (hS : ∀ i j, j < i → S i j = C i j) :
    eigAtLeast S t := by
  obtain ⟨R, ⟨hR1, hR2⟩, hR3⟩ := hC
  refine ⟨fun i j => if i = j then 1 else R i j, ⟨?_, ?_⟩, ?_⟩
  · intro i j hji
    by_cases h : i = j
    · subst h; simp [hS1]
    · simp only [if_neg h]
      rw [hS i j (lt_of_le_of_ne hji (Ne.symm h))]
      exact hR1 i j hji
  · intro i j
    by_cases h : i = j
    · simp [h]
    · simp only [if_neg h, if_neg (Ne.symm h), hR2 i j]
  · intro v
    refine (hR3 v).trans ?_
    apply Finset.sum_le_sum
    intro i _
    apply Finset.sum_le_sum
    intro j _
    by_cases h : i = j
    · subst h
      have h1 := hd i
      rw [hR1 i i le_rfl, Fl.fin_le_fin] at h1
      simp only [if_true, one_mul]
      nlinarith [mul_self_nonneg (v i)]
    · simp [h]

/-- An exactly symmetric matrix whose lower triangle is finite is symmetric for the tests. -/
theorem isSymmetric_of_exact {d : ℕ} {M : SqMat Fl d} (h : ∀ i j, M i j = M j i)
    (hf : ∀ i j, (M i j) ≠ .nan) {t : ℝ} (ht : 0 ≤ t) : isSymmetric M t := by
  intro i j
  rw [h i j]
  cases hM : M j i with
  | nan => exact absurd hM (hf j i)
  | ninf => trivial
  | pinf => trivial
  | fin x =>
    simp only [closeTo, sub_self, abs_zero]
    have := abs_nonneg x
    positivity

theorem isPsd_of_unitDiag {d : ℕ} {C S : SqMat Fl d} (hC : eigAtLeast C 1e-12)
    (hd : ∀ i, C i i ≤ .fin 1) (hS1 : ∀ i, S i i = .fin 1) (hsym : ∀ i j, S i j = S j i)
    (hS : ∀ i j, j < i → S i j = C i j) : isPsd S := by
  refine ⟨?_, eigAtLeast_unitDiag hC hd hS1 hS⟩
  obtain ⟨R, ⟨hR1, -⟩, -⟩ := eigAtLeast_unitDiag hC hd hS1 hS
  apply isSymmetric_of_exact hsym _ (by norm_num)
  intro i j
  rcases le_total j i with h | h
  · rw [hR1 i j h]; simp
  · rw [hsym, hR1 j i h]; simp

/-- What is assumed of `statsmodels.cov_nearest` on a finite matrix with positive diagonal: it
keeps the diagonal and its result passes the library's own eigenvalue test. -/
def RepairOk (ext : CovNearest) : Prop :=
  ∀ d (M : SqMat Fl d), isSymmetric M 1e-8 → ¬ isPsd M → (∀ i j, ∃ x : ℝ, M i j = .fin x) →
    (∀ i, Fl.fin 0 < M i i) →
    eigAtLeast (ext d M) 1e-12 ∧ ∀ i, ext d M i i = M i i

/-- No entry is infinite (NaN is allowed). -/
def NoInf (l : List Fl) : Prop := ∀ x ∈ l, x ≠ .pinf ∧ x ≠ .ninf

theorem psd_after_read {d : ℕ} (hd : 2 ≤ d) {C : SqMat Fl d} {l : List Fl}
    (h : (do fancyRead C (← triIndices d 1 "lower")) = .ok l) (hC : eigAtLeast C 1e-12)
    (hdiag : ∀ i, C i i ≤ .fin 1) :
    ∃ S : SqMat Fl d, Ell.sigma ⟨d, l⟩ = .ok ⟨d, S⟩ ∧ isPsd S := by
  have hw := readLower_wf hd h
  obtain ⟨S, h1, h2, h3, h4⟩ := Ell.sigma_ok hw
  refine ⟨S, h1, isPsd_of_unitDiag hC hdiag h2 h3 ?_⟩
  intro i j hji
  obtain ⟨l', k1, -, k3⟩ := readLower_ok C
  rw [h] at k1
  simp only [Except.ok.injEq] at k1
  subst k1
  have e1 := h4 j i hji
  have e2 := k3 j i hji
  simp only at e1
  rw [e2] at e1
  rw [h3]
  simpa using e1.symm

theorem noInf_sigma {s : Ell} (hs : s.WF) (hn : NoInf s.rhos) {M : SqMat Fl s.dim}
    (hM : s.sigma = .ok ⟨s.dim, M⟩) (hsym : isSymmetric M 1e-8) (i j : Fin s.dim) :
    ∃ x : ℝ, M i j = .fin x := by
  obtain ⟨M', h1, h2, h3, h4⟩ := Ell.sigma_ok hs
  rw [hM] at h1
  simp only [Except.ok.injEq, Sigma.mk.injEq, heq_eq_eq, true_and] at h1
  subst h1
  have key : ∀ i j : Fin s.dim, i < j → ∃ x : ℝ, M i j = .fin x := by
    intro i j hij
    have := hn _ (List.mem_of_getElem? (h4 i j hij))
    have hc := hsym i j
    cases hv : M i j with
    | nan => rw [hv] at hc; simp [closeTo] at hc
    | fin x => exact ⟨x, rfl⟩
    | pinf => exact absurd hv this.1
    | ninf => exact absurd hv this.2
  rcases lt_trichotomy i j with h | h | h
  · exact key i j h
  · subst h; exact ⟨1, h2 i⟩
  · rw [h3]; exact key j i h

theorem noInf_readLower {d : ℕ} {C : SqMat Fl d} {l : List Fl}
    (h : (do fancyRead C (← triIndices d 1 "lower")) = .ok l) (hC : eigAtLeast C 1e-12) :
    NoInf l := by
  obtain ⟨l', k1, k2, k3⟩ := readLower_ok C
  rw [h] at k1
  simp only [Except.ok.injEq] at k1
  subst k1
  obtain ⟨R, ⟨hR, -⟩, -⟩ := hC
  intro x hx
  obtain ⟨k, hk, rfl⟩ := List.getElem_of_mem hx
  rw [k2] at hk
  obtain ⟨i, j, hij, hj, rfl⟩ := rhoPos_surj hk
  have := k3 ⟨i, hij.trans hj⟩ ⟨j, hj⟩ (by simpa using hij)
  rw [List.getElem?_eq_getElem (by rw [k2]; exact hk), hR _ _ (by simpa using hij.le)] at this
  simp only [Option.some.injEq] at this
  rw [this]
  simp

theorem forcePsd_psd {ext : CovNearest} (hext : RepairOk ext) {s : Ell} (hs : s.WF)
    (hn : NoInf s.rhos) (hok : (s.forcePsd ext).2 = .ok ()) :
    ∃ S : SqMat Fl s.dim, (s.forcePsd ext).1.sigma = .ok ⟨s.dim, S⟩ ∧ isPsd S := by
  obtain ⟨M, h1, h2, -⟩ := Ell.sigma_ok hs
  have hfin := noInf_sigma hs hn h1
  unfold Ell.forcePsd at hok ⊢
  rw [h1] at hok ⊢
  simp only [nearPsd_square] at hok ⊢
  split_ifs at hok ⊢ with c1 c2
  · simp only at hok ⊢
    split at hok <;> rename_i l hl
    · simp at hok
    · exact psd_after_read hs.1 hl c2.2 (fun i => by rw [h2]; exact le_refl (1 : ℝ))
  · simp only at hok ⊢
    obtain ⟨r1, r2⟩ := hext _ _ c1 c2 (hfin c1)
      (fun i => by rw [h2]; exact (zero_lt_one : (0 : ℝ) < 1))
    split at hok <;> rename_i l hl
    · simp at hok
    · exact psd_after_read hs.1 hl r1 (fun i => by rw [r2, h2]; exact le_refl (1 : ℝ))

theorem forcePsd_noInf {ext : CovNearest} (hext : RepairOk ext) {s : Ell} (hs : s.WF)
    (hn : NoInf s.rhos) : NoInf (s.forcePsd ext).1.rhos := by
  obtain ⟨M, h1, h2, -⟩ := Ell.sigma_ok hs
  have hfin := noInf_sigma hs hn h1
  unfold Ell.forcePsd
  rw [h1]
  simp only [nearPsd_square]
  split_ifs with c1 c2
  · simp only
    split <;> rename_i l hl
    · exact hn
    · exact noInf_readLower hl c2.2
  · simp only
    obtain ⟨r1, r2⟩ := hext _ _ c1 c2 (hfin c1)
      (fun i => by rw [h2]; exact (zero_lt_one : (0 : ℝ) < 1))
    split <;> rename_i l hl
    · exact hn
    · exact noInf_readLower hl r1
  · exact hn

theorem rangeOk_noInf {v : PyVal} (h : rangeOk v) : NoInf v.flat := by
  intro x hx
  cases v with
  | scalar w =>
    simp only [PyVal.flat, List.mem_singleton] at hx
    subst hx
    cases x <;> simp_all [rangeOk]
  | vec l =>
    have := h x hx
    cases x <;> simp_all
  | mat r c M =>
    simp only [PyVal.flat, List.mem_flatten, List.mem_ofFn] at hx
    obtain ⟨l, ⟨i, rfl⟩, hl⟩ := hx
    obtain ⟨j, rfl⟩ := (List.mem_ofFn' _ _).1 hl
    have := h i j
    cases hM : M i j <;> simp_all

theorem rows_noInf {v : PyVal} (h : rangeOk v) (d : ℕ) : ∀ r ∈ v.rows d, NoInf r := by
  intro r hr x hx
  cases v with
  | scalar w =>
    rw [PyVal.rows, List.mem_replicate] at hr
    obtain ⟨-, rfl⟩ := hr
    exact rangeOk_noInf h x hx
  | vec l =>
    simp only [PyVal.rows, List.mem_map] at hr
    obtain ⟨w, hw, rfl⟩ := hr
    simp only [List.mem_singleton] at hx
    subst hx
    exact rangeOk_noInf h x hw
  | mat a b M =>
    apply rangeOk_noInf h x
    simp only [PyVal.flat, List.mem_flatten]
    exact ⟨r, hr, hx⟩

theorem storeCell_noInf {rhos : List Fl} {p : ℕ} {row l : List Fl} (hn : NoInf rhos)
    (hr : NoInf row) (h : storeCell rhos p row = .ok l) : NoInf l := by
  unfold storeCell at h
  split at h
  · simp only [Except.ok.injEq] at h
    subst h
    intro x hx
    rcases List.mem_or_eq_of_mem_set hx with h | rfl
    · exact hn x h
    · exact hr _ (by simp)
  · simp at h

theorem rowLoop_noInf (d : ℕ) (pair : ℕ → ℤ × ℤ) (vs : List (List Fl)) :
    ∀ (i : ℕ) (rhos : List Fl), (∀ r ∈ vs, NoInf r) → NoInf rhos →
      NoInf (rowLoop d pair i vs rhos).1 := by
  induction vs with
  | nil => intro i rhos _ h; exact h
  | cons v vs ih =>
    intro i rhos hv hn
    unfold rowLoop
    split_ifs
    · exact ih _ _ (fun r hr => hv r (List.mem_cons_of_mem _ hr)) hn
    · split
      · exact hn
      · rename_i r hr
        refine ih _ _ (fun r hr => hv r (List.mem_cons_of_mem _ hr)) ?_
        cases hg : getRhoIndex d (pair i).1 (pair i).2 with
        | error e => simp [hg, bind, Except.bind] at hr
        | ok p =>
          simp only [hg, bind, Except.bind] at hr
          exact storeCell_noInf hn (hv v (by simp)) hr

/-- Diagonal entries of an assigned matrix lie in `(0, 1]`. -/
def diagOk : PyVal → Prop
  | .mat r c M => ∀ (i : Fin r) (j : Fin c), i.val = j.val → Fl.fin 0 < M i j ∧ M i j ≤ .fin 1
  | _ => True

theorem rangeOk_fin {r c : ℕ} {M : Fin r → Fin c → Fl} (h : rangeOk (.mat r c M)) (i : Fin r)
    (j : Fin c) : ∃ x : ℝ, M i j = .fin x := by
  have := h i j
  cases hM : M i j <;> simp_all

/-- Everything about a slice assignment in range: outcome passes the test, nothing infinite. -/
theorem setSlice_spec {ext : CovNearest} (hext : RepairOk ext) {s : Ell} (hs : s.WF)
    (hn : NoInf s.rhos) {v : PyVal} (hr : rangeOk v) (hdiag : diagOk v) :
    NoInf (s.setSlice ext v).1.rhos ∧ ((s.setSlice ext v).2 = .ok () →
      ∃ M : SqMat Fl s.dim, (s.setSlice ext v).1.sigma = .ok ⟨s.dim, M⟩ ∧ isPsd M) := by
  cases v with
  | scalar v => simpa [Ell.setSlice, nearPsd] using hn
  | vec l => simpa [Ell.setSlice, nearPsd] using hn
  | mat r c M =>
    by_cases hrc : r = c
    · subst hrc
      by_cases hr' : r = s.dim
      · subst hr'
        simp only [Ell.setSlice, nearPsd_square]
        split_ifs with c1 c2
        · simp only [ne_eq, not_true_eq_false, if_false]
          split <;> rename_i l hl
          · exact ⟨hn, by simp⟩
          · exact ⟨noInf_readLower hl c2.2,
              fun _ => psd_after_read hs.1 hl c2.2 (fun i => (hdiag i i rfl).2)⟩
        · obtain ⟨r1, r2⟩ := hext _ _ c1 c2 (rangeOk_fin hr) (fun i => (hdiag i i rfl).1)
          simp only [ne_eq, not_true_eq_false, if_false]
          split <;> rename_i l hl
          · exact ⟨hn, by simp⟩
          · exact ⟨noInf_readLower hl r1,
              fun _ => psd_after_read hs.1 hl r1 (fun i => by rw [r2]; exact (hdiag i i rfl).2)⟩
        · exact ⟨hn, by simp⟩
      · simp only [Ell.setSlice, nearPsd_square]
        split_ifs <;> simpa [hr'] using hn
    · simpa [Ell.setSlice, nearPsd, hrc] using hn

theorem setRow_spec {ext : CovNearest} (hext : RepairOk ext) {s : Ell} (hs : s.WF)
    (hn : NoInf s.rhos) {v : PyVal} (hr : rangeOk v) (pair : ℕ → ℤ × ℤ) :
    NoInf (s.setRow ext pair v).1.rhos ∧ ((s.setRow ext pair v).2 = .ok () →
      ∃ M : SqMat Fl s.dim, (s.setRow ext pair v).1.sigma = .ok ⟨s.dim, M⟩ ∧ isPsd M) := by
  have hw : Ell.WF ⟨s.dim, (rowLoop s.dim pair 0 (v.rows s.dim) s.rhos).1⟩ :=
    ⟨hs.1, by rw [rowLoop_length]; exact hs.2⟩
  have hn' := rowLoop_noInf s.dim pair (v.rows s.dim) 0 s.rhos (rows_noInf hr s.dim) hn
  unfold Ell.setRow
  split_ifs
  · exact ⟨hn, by simp⟩
  · simp only
    split
    · exact ⟨hn', by simp⟩
    · exact ⟨forcePsd_noInf hext (s := ⟨_, _⟩) hw hn',
        fun hok => forcePsd_psd hext (s := ⟨_, _⟩) hw hn' hok⟩

theorem setItem_spec {ext : CovNearest} (hext : RepairOk ext) {s : Ell} (hs : s.WF)
    (hn : NoInf s.rhos) (ix : Ix) (v : PyVal) (hdiag : diagOk v) :
    NoInf (s.setItem ext ix v).1.rhos ∧ ((s.setItem ext ix v).2 = .ok () →
      ∃ M : SqMat Fl s.dim, (s.setItem ext ix v).1.sigma = .ok ⟨s.dim, M⟩ ∧ isPsd M) := by
  unfold Ell.setItem
  split_ifs with hr
  rotate_left
  · exact ⟨hn, by simp⟩
  split
  · exact setSlice_spec hext hs hn hr hdiag
  · rename_i k
    split <;> rename_i l hl
    · exact ⟨hn, by simp⟩
    · have hl' : l.length = s.rhos.length ∧ NoInf l := by
        cases hg : npPos s.rhos.length k with
        | error e => simp [hg, bind, Except.bind] at hl
        | ok p =>
          simp only [hg, bind, Except.bind] at hl
          exact ⟨storeCell_length hl, storeCell_noInf hn (rangeOk_noInf hr) hl⟩
      have hw : Ell.WF ⟨s.dim, l⟩ := ⟨hs.1, by rw [hl'.1]; exact hs.2⟩
      exact ⟨forcePsd_noInf hext hw hl'.2, forcePsd_psd hext hw hl'.2⟩
  · exact setSlice_spec hext hs hn hr hdiag
  · exact setRow_spec hext hs hn hr _
  · exact setRow_spec hext hs hn hr _
  · split <;> rename_i p hp
    · exact ⟨hn, by simp⟩
    · split <;> rename_i w hw
      · have hn' : NoInf (s.rhos.set p w) := by
          intro x hx
          rcases List.mem_or_eq_of_mem_set hx with h | rfl
          · exact hn x h
          · exact rangeOk_noInf hr x (by rw [hw]; simp)
        have hw : Ell.WF ⟨s.dim, s.rhos.set p w⟩ := ⟨hs.1, by simpa using hs.2⟩
        exact ⟨forcePsd_noInf hext hw hn', forcePsd_psd hext hw hn'⟩
      · exact ⟨hn, by simp⟩
  · exact ⟨hn, by simp⟩

/-! ### Rejected assignments -/

/-- All entries are finite. -/
def AllFin (l : List Fl) : Prop := ∀ x ∈ l, ∃ r : ℝ, x = .fin r

theorem forcePsd_ok {ext : CovNearest} {s : Ell} (hs : s.WF) (hf : AllFin s.rhos) :
    (s.forcePsd ext).2 = .ok () := by
  obtain ⟨M, h1, h2, h3, h4⟩ := Ell.sigma_ok hs
  have key : ∀ i j : Fin s.dim, i < j → M i j ≠ .nan := by
    intro i j hij h
    obtain ⟨r, hr⟩ := hf _ (List.mem_of_getElem? (h4 i j hij))
    rw [h] at hr; cases hr
  have hsym : isSymmetric M 1e-8 := by
    apply isSymmetric_of_exact h3 _ (by norm_num)
    intro i j
    rcases lt_trichotomy i j with h | h | h
    · exact key i j h
    · subst h; rw [h2]; simp
    · rw [h3]; exact key j i h
  unfold Ell.forcePsd
  rw [h1]
  simp only [nearPsd_square, if_pos hsym]
  split_ifs
  · obtain ⟨l, hl, -⟩ := readLower_ok M
    simp only [hl]
  · obtain ⟨l, hl, -⟩ := readLower_ok (ext s.dim M)
    simp only [hl]

theorem rowLoop_unchanged (d : ℕ) (pair : ℕ → ℤ × ℤ) (vs : List (List Fl)) :
    ∀ (i : ℕ) (rhos : List Fl),
      (∀ k, ∀ v ∈ vs, i ≤ k → k < i + vs.length → (pair k).1 ≠ (pair k).2 →
        ∃ e, (do storeCell rhos (← getRhoIndex d (pair k).1 (pair k).2) v) = .error e) →
      (rowLoop d pair i vs rhos).1 = rhos := by
  induction vs with
  | nil => intro i rhos _; rfl
  | cons v vs ih =>
    intro i rhos h
    unfold rowLoop
    split_ifs with hd
    · apply ih
      intro k w hw hk1 hk2
      exact h k w (List.mem_cons_of_mem _ hw) (by omega) (by simp only [List.length_cons]; omega)
    · obtain ⟨e, he⟩ := h i v (by simp) le_rfl (by simp) hd
      rw [he]

theorem rowLoop_ok (d : ℕ) (pair : ℕ → ℤ × ℤ) (vs : List (List Fl)) :
    ∀ (i : ℕ) (rhos : List Fl), (∀ v ∈ vs, v.length = 1) → (∀ v ∈ vs, AllFin v) → AllFin rhos →
      (∀ k, i ≤ k → k < i + vs.length → (pair k).1 ≠ (pair k).2 →
        ∃ p, getRhoIndex d (pair k).1 (pair k).2 = .ok p) →
      (rowLoop d pair i vs rhos).2 = .ok () ∧ AllFin (rowLoop d pair i vs rhos).1 := by
  induction vs with
  | nil => intro i rhos _ _ h _; exact ⟨rfl, h⟩
  | cons v vs ih =>
    intro i rhos h1 h2 h3 h4
    unfold rowLoop
    split_ifs with hd
    · exact ih _ _ (fun w hw => h1 w (List.mem_cons_of_mem _ hw))
        (fun w hw => h2 w (List.mem_cons_of_mem _ hw)) h3
        (fun k hk1 hk2 => h4 k (by omega) (by simp only [List.length_cons]; omega))
    · obtain ⟨p, hp⟩ := h4 i le_rfl (by simp) hd
      obtain ⟨w, rfl⟩ := List.length_eq_one_iff.1 (h1 v (by simp))
      simp only [hp, bind, Except.bind, storeCell]
      apply ih _ _ (fun w hw => h1 w (List.mem_cons_of_mem _ hw))
        (fun w hw => h2 w (List.mem_cons_of_mem _ hw))
      · intro x hx
        rcases List.mem_or_eq_of_mem_set hx with h | rfl
        · exact h3 x h
        · exact h2 _ List.mem_cons_self _ List.mem_cons_self
      · exact fun k hk1 hk2 => h4 k (by omega) (by simp only [List.length_cons]; omega)

theorem rangeOk_allFin {v : PyVal} (h : rangeOk v) (hv : v ≠ .scalar .nan) : AllFin v.flat := by
  intro x hx
  have hx' := rangeOk_noInf h x hx
  cases hc : x with
  | fin r => exact ⟨r, rfl⟩
  | pinf => exact absurd hc hx'.1
  | ninf => exact absurd hc hx'.2
  | nan =>
    subst hc
    exfalso
    cases v with
    | scalar w =>
      simp only [PyVal.flat, List.mem_singleton] at hx
      exact hv (by rw [hx])
    | vec l => simpa using h _ hx
    | mat r c M =>
      simp only [PyVal.flat, List.mem_flatten, List.mem_ofFn] at hx
      obtain ⟨l, ⟨i, rfl⟩, hl⟩ := hx
      obtain ⟨j, hj⟩ := (List.mem_ofFn' _ _).1 hl
      have := h i j
      simp only at hj
      rw [hj] at this
      simp at this

theorem rows_allFin {v : PyVal} (h : rangeOk v) (hv : v ≠ .scalar .nan) (d : ℕ) :
    ∀ r ∈ v.rows d, AllFin r := by
  intro r hr x hx
  cases v with
  | scalar w =>
    rw [PyVal.rows, List.mem_replicate] at hr
    obtain ⟨-, rfl⟩ := hr
    exact rangeOk_allFin h hv x hx
  | vec l =>
    simp only [PyVal.rows, List.mem_map] at hr
    obtain ⟨w, hw, rfl⟩ := hr
    simp only [List.mem_singleton] at hx
    subst hx
    exact rangeOk_allFin h hv x hw
  | mat a b M =>
    apply rangeOk_allFin h hv x
    simp only [PyVal.flat, List.mem_flatten]
    exact ⟨r, hr, hx⟩

theorem rows_length (v : PyVal) (d : ℕ) : ∃ c, ∀ r ∈ v.rows d, r.length = c := by
  cases v with
  | scalar w =>
    refine ⟨1, fun r hr => ?_⟩
    rw [PyVal.rows, List.mem_replicate] at hr
    rw [hr.2]; rfl
  | vec l =>
    refine ⟨1, fun r hr => ?_⟩
    simp only [PyVal.rows, List.mem_map] at hr
    obtain ⟨w, -, rfl⟩ := hr
    rfl
  | mat a b M =>
    refine ⟨b, fun r hr => ?_⟩
    simp only [PyVal.rows, List.mem_ofFn] at hr
    obtain ⟨i, rfl⟩ := hr
    simp

theorem setRow_error {ext : CovNearest} {s : Ell} (hs : s.WF) (hf : AllFin s.rhos)
    {v : PyVal} (hr : rangeOk v) (hv : v ≠ .scalar .nan) (pair : ℕ → ℤ × ℤ)
    (hpair : (∀ k < s.dim, (pair k).1 ≠ (pair k).2 →
        ∃ p, getRhoIndex s.dim (pair k).1 (pair k).2 = .ok p) ∨
      (∀ k < s.dim, (pair k).1 ≠ (pair k).2 →
        ∃ e, getRhoIndex s.dim (pair k).1 (pair k).2 = .error e))
    {e : PyErr} (herr : (s.setRow ext pair v).2 = .error e) : (s.setRow ext pair v).1 = s := by
  unfold Ell.setRow at herr ⊢
  split_ifs at herr ⊢ with hlen
  · rfl
  push Not at hlen
  obtain ⟨c, hc⟩ := rows_length v s.dim
  have hun : (∀ k, ∀ w ∈ v.rows s.dim, 0 ≤ k → k < 0 + (v.rows s.dim).length →
      (pair k).1 ≠ (pair k).2 →
      ∃ e, (do storeCell s.rhos (← getRhoIndex s.dim (pair k).1 (pair k).2) w) = .error e) →
      (rowLoop s.dim pair 0 (v.rows s.dim) s.rhos).1 = s.rhos :=
    rowLoop_unchanged s.dim pair (v.rows s.dim) 0 s.rhos
  have hforce : ∀ l, AllFin l → l.length = s.rhos.length →
      (Ell.forcePsd ext ⟨s.dim, l⟩).2 = .ok () :=
    fun l h1 h2 => forcePsd_ok (s := ⟨s.dim, l⟩) ⟨hs.1, by rw [h2]; exact hs.2⟩ h1
  have hdis : (rowLoop s.dim pair 0 (v.rows s.dim) s.rhos).1 = s.rhos ∨
      ((rowLoop s.dim pair 0 (v.rows s.dim) s.rhos).2 = .ok () ∧
        AllFin (rowLoop s.dim pair 0 (v.rows s.dim) s.rhos).1) := by
    by_cases hc1 : c = 1
    · subst hc1
      rcases hpair with hp | hp
      · right
        exact rowLoop_ok s.dim pair (v.rows s.dim) 0 s.rhos hc
          (rows_allFin hr hv s.dim) hf (fun k _ hk => hp k (by omega))
      · left
        apply hun
        intro k w _ _ hk hne
        obtain ⟨e, he⟩ := hp k (by omega) hne
        exact ⟨e, by rw [he]; rfl⟩
    · left
      apply hun
      intro k w hw _ hk hne
      cases hg : getRhoIndex s.dim (pair k).1 (pair k).2 with
      | error e => exact ⟨e, rfl⟩
      | ok p =>
        refine ⟨.valueError, ?_⟩
        have hw1 : w.length ≠ 1 := by rw [hc w hw]; exact hc1
        simp only [bind, Except.bind, storeCell]
        split
        · exact absurd rfl hw1
        · rfl
  have hlen' := rowLoop_length s.dim pair (v.rows s.dim) 0 s.rhos
  clear hun
  generalize rowLoop s.dim pair 0 (v.rows s.dim) s.rhos = R at *
  obtain ⟨l, r⟩ := R
  simp only at *
  rcases hdis with rfl | ⟨rfl, hfin⟩
  · cases r with
    | error e' => rfl
    | ok u =>
      simp only at herr
      rw [hforce _ hf rfl] at herr
      cases herr
  · simp only at herr
    rw [hforce _ hfin hlen'] at herr
    cases herr

theorem pair_left (d : ℕ) (y : ℤ) :
    (∀ k < d, (((k : ℕ) : ℤ), y).1 ≠ (((k : ℕ) : ℤ), y).2 →
        ∃ p, getRhoIndex d k y = .ok p) ∨
      (∀ k < d, (((k : ℕ) : ℤ), y).1 ≠ (((k : ℕ) : ℤ), y).2 →
        ∃ e, getRhoIndex d k y = .error e) := by
  by_cases h : 0 ≤ y ∧ y < d
  · left
    intro k hk hne
    obtain ⟨n, rfl⟩ := Int.eq_ofNat_of_zero_le h.1
    exact ⟨_, getRhoIndex_ok hk (by exact_mod_cast h.2) (by simpa using hne)⟩
  · right
    intro k hk hne
    exact ⟨_, getRhoIndex_error (by omega)⟩

theorem pair_right (d : ℕ) (x : ℤ) :
    (∀ k < d, (x, ((k : ℕ) : ℤ)).1 ≠ (x, ((k : ℕ) : ℤ)).2 →
        ∃ p, getRhoIndex d x k = .ok p) ∨
      (∀ k < d, (x, ((k : ℕ) : ℤ)).1 ≠ (x, ((k : ℕ) : ℤ)).2 →
        ∃ e, getRhoIndex d x k = .error e) := by
  by_cases h : 0 ≤ x ∧ x < d
  · left
    intro k hk hne
    obtain ⟨n, rfl⟩ := Int.eq_ofNat_of_zero_le h.1
    exact ⟨_, getRhoIndex_ok (by exact_mod_cast h.2) hk (by simpa using hne)⟩
  · right
    intro k hk hne
    exact ⟨_, getRhoIndex_error (by omega)⟩

theorem setSlice_error {ext : CovNearest} {s : Ell} {v : PyVal} {e : PyErr}
    (herr : (s.setSlice ext v).2 = .error e) : (s.setSlice ext v).1 = s := by
  unfold Ell.setSlice at herr ⊢
  split
  · rfl
  · rename_i k M h
    simp only [h] at herr
    split_ifs at herr ⊢ with hk
    · rfl
    · split <;> rename_i l hl
      · rfl
      · simp [hl] at herr

end Copulae
