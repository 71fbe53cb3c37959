import Verif.Lemmas.Gmc

/-!
C47, C68: the vector representation of the parameters of a Gaussian mixture copula.
-/

namespace Copulae

open Matrix
open scoped ComplexOrder

/-- Entries 0 and 1 moved inside the unit interval. -/
noncomputable def nudge (x : ℝ) : ℝ := if x = 0 then 1e-5 else if x = 1 then 1 - 1e-5 else x

/-- The probabilities after `to_vector`. -/
noncomputable def adjProb {m : ℕ} (p : Fin m → ℝ) (i : Fin m) : ℝ := nudge (p i) / ∑ k, nudge (p k)

theorem nudge_pos {x : ℝ} (h0 : 0 ≤ x) : 0 < nudge x := by
  unfold nudge
  split_ifs with h1 h2
  · norm_num
  · norm_num
  · exact lt_of_le_of_ne h0 (Ne.symm h1)

theorem nudge_of_mem {x : ℝ} (h : x ∈ Set.Ioo (0 : ℝ) 1) : nudge x = x := by
  rw [nudge, if_neg h.1.ne', if_neg h.2.ne]

theorem nudgeFl_fin (x : ℝ) : nudgeFl (.fin x) = .fin (nudge x) := by
  unfold nudge nudgeFl
  by_cases h : x = 0
  · have : ¬ (1e-5 : ℝ) = 1 := by norm_num
    simp only [h, if_true, Fl.fin_add_fin, Fl.fin.injEq, this, if_false, zero_add]
  · by_cases h' : x = 1
    · simp only [h', Fl.fin.injEq, one_ne_zero, if_false, if_true, Fl.fin_sub_fin]
    · simp only [h, h', Fl.fin.injEq, if_false]

theorem fixProb_fin {m : ℕ} (p : Fin m → ℝ) (h0 : ∀ i, 0 ≤ p i) :
    fixProb (fun i => Fl.fin (p i)) = fun i => .fin (adjProb p i) := by
  funext i
  have hs : 0 < ∑ k, nudge (p k) :=
    Finset.sum_pos (fun k _ => nudge_pos (h0 k)) ⟨i, Finset.mem_univ _⟩
  simp only [fixProb, nudgeFl_fin, Fl.sum_fin]
  rw [Fl.fin_div_fin' _ hs.ne']
  rfl

theorem adjProb_mem {m : ℕ} (hm : 2 ≤ m) (p : Fin m → ℝ) (h0 : ∀ i, 0 ≤ p i) (i : Fin m) :
    adjProb p i ∈ Set.Ioo (0 : ℝ) 1 := by
  have hs : 0 < ∑ k, nudge (p k) := Finset.sum_pos (fun k _ => nudge_pos (h0 k)) ⟨i, Finset.mem_univ _⟩
  refine ⟨div_pos (nudge_pos (h0 i)) hs, ?_⟩
  rw [adjProb, div_lt_one hs]
  obtain ⟨j, hj⟩ : ∃ j : Fin m, j ≠ i := by
    have : Nontrivial (Fin m) := Fin.nontrivial_iff_two_le.mpr hm
    exact exists_ne i
  exact Finset.single_lt_sum hj (Finset.mem_univ i) (Finset.mem_univ j) (nudge_pos (h0 j))
    fun k _ _ => (nudge_pos (h0 k)).le

theorem adjProb_sum {m : ℕ} (hm : 1 ≤ m) (p : Fin m → ℝ) (h0 : ∀ i, 0 ≤ p i) : ∑ i, adjProb p i = 1 := by
  have hs : 0 < ∑ k, nudge (p k) :=
    Finset.sum_pos (fun k _ => nudge_pos (h0 k)) ⟨⟨0, hm⟩, Finset.mem_univ _⟩
  unfold adjProb
  rw [← Finset.sum_div, div_self hs.ne']

theorem adjProb_self {m : ℕ} (p : Fin m → ℝ) (h : ∀ i, p i ∈ Set.Ioo (0 : ℝ) 1) (hs : ∑ i, p i = 1) :
    adjProb p = p := by
  funext i
  unfold adjProb
  simp only [nudge_of_mem (h _), hs, div_one]

theorem flParam_injective {m d : ℕ} {p p' : Fin m → ℝ} {μ μ' : Fin m → Fin d → ℝ}
    {S S' : Fin m → Matrix (Fin d) (Fin d) ℝ} (h : flParam p μ S = flParam p' μ' S') : p = p' := by
  funext i
  have := congrFun (congrArg GMCParam.prob h) i
  simpa [flParam] using this

/-- The vector of real parameters. -/
theorem toVector_fin {m d : ℕ} (hm : 2 ≤ m) (p : Fin m → ℝ) (h0 : ∀ i, 0 ≤ p i) (μ : Fin m → Fin d → ℝ)
    (S : Fin m → Matrix (Fin d) (Fin d) ℝ) :
    (flParam p μ S).toVector = (flParam (adjProb p) μ S,
      (List.ofFn fun i => Fl.fin (Real.log (adjProb p i / (1 - adjProb p i)))) ++
      (List.finRange m).flatMap (fun i => List.ofFn fun j => Fl.fin (μ i j)) ++
      (List.finRange m).flatMap (fun i => covUpper (flMat (S i)))) := by
  have h : ∀ i, Fl.log (Fl.fin (adjProb p i) / (Fl.fin 1 - Fl.fin (adjProb p i))) =
      .fin (Real.log (adjProb p i / (1 - adjProb p i))) := by
    intro i
    have := adjProb_mem hm p h0 i
    have h1 : 0 < 1 - adjProb p i := by linarith [this.2]
    rw [Fl.fin_sub_fin, Fl.fin_div_fin' _ h1.ne', Fl.log_pos (div_pos this.1 h1)]
  simp only [GMCParam.toVector, flParam, fixProb_fin p h0, h]

theorem flatMap_const_length {m : ℕ} {β : Type} (f : Fin m → List β) (k : ℕ) (h : ∀ i, (f i).length = k) :
    ((List.finRange m).flatMap f).length = m * k := by
  rw [List.length_flatMap]
  simp only [h, List.map_const', List.sum_replicate, List.length_finRange, smul_eq_mul]

theorem flatMap_getD {α β : Type} {d : ℕ} (f : α → List β) (b : β) (h : ∀ a, (f a).length = d) (l : List α)
    (i j : ℕ) (hi : i < l.length) (hj : j < d) :
    (l.flatMap f).getD (i * d + j) b = (f l[i]).getD j b := by
  induction l generalizing i with
  | nil => simp at hi
  | cons a l ih =>
    rw [List.flatMap_cons, List.getD_eq_getElem?_getD, List.getD_eq_getElem?_getD]
    cases i with
    | zero => rw [List.getElem?_append_left (by rw [h]; omega)]; simp
    | succ i =>
      rw [List.getElem?_append_right (by rw [h]; nlinarith), h,
        show (i + 1) * d + j - d = i * d + j by rw [add_mul, one_mul]; omega]
      have := ih i (by simpa using hi)
      rw [List.getD_eq_getElem?_getD, List.getD_eq_getElem?_getD] at this
      simpa using this

theorem covUpper_length {d : ℕ} (c : SqMat Fl d) : (covUpper c).length = d * (d + 1) / 2 := by
  rw [covUpper, List.length_map, length_triuPairs]

/-- The steps of `from_vector` before the constructor, for any first part and any last part. -/
theorem fromVector_parts' (ext : CovNearest) {m d : ℕ} (hd : 1 ≤ d) (A C : List Fl) (lA : A.length = m)
    (μ : Fin m → Fin d → ℝ) (S : Fin m → Matrix (Fin d) (Fin d) ℝ)
    (hC : (blocks (d * (d + 1) / 2) C.length C).mapM (covOfUpper d) =
      .ok ((List.finRange m).map fun i => flMat (S i))) :
    ∃ (f : ℕ → ℕ → Fl) (g : ℕ → ℕ → ℕ → Fl), (∀ (i : Fin m) (j : Fin d), f i j = .fin (μ i j)) ∧
      (∀ (i : Fin m) (a b : Fin d), g i a b = .fin (S i a b)) ∧
      fromVector ext m d (A ++ (List.finRange m).flatMap (fun i => List.ofFn fun j => Fl.fin (μ i j)) ++ C) =
      GMCParam.mk' ext m d ((A.map fun x => Fl.exp x / (.fin 1 + Fl.exp x)).map fun x =>
        x / (A.map fun x => Fl.exp x / (.fin 1 + Fl.exp x)).sum) ⟨m, d, f⟩ ⟨m, d, d, g⟩ := by
  set B := (List.finRange m).flatMap (fun i => List.ofFn fun j => Fl.fin (μ i j)) with hB
  have lB : B.length = m * d := flatMap_const_length _ _ fun i => List.length_ofFn
  have hstep : 0 < d * (d + 1) / 2 := by
    have : 2 ≤ d * (d + 1) := by nlinarith
    omega
  have e1 : (A ++ B ++ C).take m = A := by rw [List.append_assoc, ← lA, List.take_left]
  have e2 : ((A ++ B ++ C).drop m).take (m * d) = B := by
    rw [List.append_assoc, ← lA, List.drop_left, lA, ← lB, List.take_left]
  have e3 : (A ++ B ++ C).drop (m + m * d) = C := by
    have : m + m * d = (A ++ B).length := by rw [List.length_append, lA, lB]
    rw [this, List.drop_left]
  refine ⟨fun i j => B.getD (i * d + j) .nan, fun i a b => if h : a < d ∧ b < d then
      (((List.finRange m).map fun i => flMat (S i)).getD i fun _ _ => .nan) ⟨a, h.1⟩ ⟨b, h.2⟩ else .nan, ?_, ?_, ?_⟩
  · intro i j
    have := flatMap_getD (fun i : Fin m => List.ofFn fun j => Fl.fin (μ i j)) Fl.nan (fun i => List.length_ofFn)
      (List.finRange m) i j (by simp) j.2
    rw [← hB] at this
    simp only
    rw [this]
    simp
  · intro i a b
    simp only
    rw [dif_pos ⟨a.2, b.2⟩]
    have := getD_map_finRange (fun i => flMat (S i)) i (fun _ _ => Fl.nan)
    rw [this]
    rfl
  · rw [fromVector]
    simp only [e1, e2, e3, hC, lB, ne_eq, not_true_eq_false, if_false, hstep.ne', bind, Except.bind,
      List.length_map, List.length_finRange]

theorem fromVector_parts (ext : CovNearest) {m d : ℕ} (hd : 1 ≤ d) (A : List Fl) (lA : A.length = m)
    (μ : Fin m → Fin d → ℝ) (S : Fin m → Matrix (Fin d) (Fin d) ℝ) (hS : ∀ i, (S i).IsHermitian) :
    ∃ (f : ℕ → ℕ → Fl) (g : ℕ → ℕ → ℕ → Fl), (∀ (i : Fin m) (j : Fin d), f i j = .fin (μ i j)) ∧
      (∀ (i : Fin m) (a b : Fin d), g i a b = .fin (S i a b)) ∧
      fromVector ext m d (A ++ (List.finRange m).flatMap (fun i => List.ofFn fun j => Fl.fin (μ i j)) ++
        (List.finRange m).flatMap (fun i => covUpper (flMat (S i)))) =
      GMCParam.mk' ext m d ((A.map fun x => Fl.exp x / (.fin 1 + Fl.exp x)).map fun x =>
        x / (A.map fun x => Fl.exp x / (.fin 1 + Fl.exp x)).sum) ⟨m, d, f⟩ ⟨m, d, d, g⟩ := by
  set C := (List.finRange m).flatMap (fun i => covUpper (flMat (S i))) with hC
  have lC : C.length = m * (d * (d + 1) / 2) := flatMap_const_length _ _ fun i => covUpper_length _
  have hstep : 0 < d * (d + 1) / 2 := by
    have : 2 ≤ d * (d + 1) := by nlinarith
    omega
  refine fromVector_parts' ext hd A C lA μ S ?_
  have e6 : blocks (d * (d + 1) / 2) C.length C = (List.finRange m).map fun i => covUpper (flMat (S i)) := by
    refine blocks_flatMap _ hstep _ _ (fun i _ => covUpper_length _) _ ?_
    rw [lC, List.length_finRange]
    exact Nat.le_mul_of_pos_right m hstep
  rw [e6, List.mapM_map]
  exact mapM_finRange_ok (fun i => covOfUpper d (covUpper (flMat (S i)))) _
    fun i => covOfUpper_upper (S i) (hS i)

theorem logistic_logit {m : ℕ} (p : Fin m → ℝ) (hp : ∀ i, p i ∈ Set.Ioo (0 : ℝ) 1) (hs : ∑ i, p i = 1) :
    (((List.ofFn fun i => Fl.fin (Real.log (p i / (1 - p i)))).map fun x => Fl.exp x / (.fin 1 + Fl.exp x)).map
      fun x => x / ((List.ofFn fun i => Fl.fin (Real.log (p i / (1 - p i)))).map
        fun x => Fl.exp x / (.fin 1 + Fl.exp x)).sum) = List.ofFn fun i => Fl.fin (p i) := by
  have e4 : (List.ofFn fun i => Fl.fin (Real.log (p i / (1 - p i)))).map
      (fun x => Fl.exp x / (.fin 1 + Fl.exp x)) = List.ofFn fun i => Fl.fin (p i) := by
    rw [List.map_ofFn]
    congr 1
    funext i
    have h1 : 0 < 1 - p i := by linarith [(hp i).2]
    have h2 := div_pos (hp i).1 h1
    rw [Function.comp, Fl.exp_fin, Real.exp_log h2, Fl.fin_add_fin, Fl.fin_div_fin' _ (by positivity)]
    congr 1
    field_simp
    ring
  rw [e4, sum_ofFn_fin, hs, List.map_ofFn]
  congr 1
  funext i
  rw [Function.comp, Fl.fin_div_fin' _ one_ne_zero, div_one]

/-- `from_vector` of logits, means and upper triangles. -/
theorem fromVector_fin (ext : CovNearest) {m d : ℕ} (hd : 1 ≤ d) (p : Fin m → ℝ)
    (hp : ∀ i, p i ∈ Set.Ioo (0 : ℝ) 1) (hs : ∑ i, p i = 1) (μ : Fin m → Fin d → ℝ)
    (S : Fin m → Matrix (Fin d) (Fin d) ℝ) (hS : ∀ i, (S i).PosSemidef) :
    fromVector ext m d ((List.ofFn fun i => Fl.fin (Real.log (p i / (1 - p i)))) ++
      (List.finRange m).flatMap (fun i => List.ofFn fun j => Fl.fin (μ i j)) ++
      (List.finRange m).flatMap (fun i => covUpper (flMat (S i)))) = .ok (flParam p μ S) := by
  obtain ⟨f, g, hf, hg, h⟩ := fromVector_parts ext hd (List.ofFn fun i => Fl.fin (Real.log (p i / (1 - p i))))
    List.length_ofFn μ S fun i => (hS i).1
  rw [h, logistic_logit p hp hs]
  exact mk'_ok ext p (fun i => (hp i).1.le) (fun i => (hp i).2.le) (by rw [hs]; norm_num) μ S hS _ rfl _ hf _ hg

/-- **C47.** For two or more clusters, any probabilities `to_vector` may meet (zeros and ones included), any
means and any positive semi-definite covariances: the vector is finite, has one entry per free number, and
`from_vector` gives back the object as `to_vector` left it; that object has probabilities in (0, 1) with sum 1. -/
theorem gmc_roundtrip (ext : CovNearest) {m d : ℕ} (hm : 2 ≤ m) (hd : 1 ≤ d) (p : Fin m → ℝ) (h0 : ∀ i, 0 ≤ p i)
    (μ : Fin m → Fin d → ℝ) (S : Fin m → Matrix (Fin d) (Fin d) ℝ) (hS : ∀ i, (S i).PosSemidef) :
    fromVector ext m d (flParam p μ S).toVector.2 = .ok (flParam p μ S).toVector.1 ∧
    (flParam p μ S).toVector.2.length = m + m * d + m * (d * (d + 1) / 2) ∧
    (∀ x ∈ (flParam p μ S).toVector.2, ∃ r : ℝ, x = .fin r) ∧
    ∃ p' : Fin m → ℝ, (flParam p μ S).toVector.1 = flParam p' μ S ∧ (∀ i, p' i ∈ Set.Ioo (0 : ℝ) 1) ∧
      ∑ i, p' i = 1 := by
  rw [toVector_fin hm p h0 μ S]
  refine ⟨fromVector_fin ext hd _ (adjProb_mem hm p h0) (adjProb_sum (by omega) p h0) μ S hS, ?_, ?_,
    adjProb p, rfl, adjProb_mem hm p h0, adjProb_sum (by omega) p h0⟩
  · simp only [List.length_append, List.length_ofFn]
    rw [flatMap_const_length _ d fun i => List.length_ofFn, flatMap_const_length _ _ fun i => covUpper_length _]
  · intro x hx
    simp only [List.mem_append, List.mem_flatMap, List.mem_ofFn, List.mem_finRange, true_and] at hx
    rcases hx with (⟨i, rfl⟩ | ⟨i, j, rfl⟩) | ⟨i, hx⟩
    · exact ⟨_, rfl⟩
    · exact ⟨_, rfl⟩
    · simp only [covUpper, List.mem_map] at hx
      obtain ⟨c, hc, rfl⟩ := hx
      have := mem_triuPairs.mp hc
      rw [dif_pos ⟨by omega, this.2⟩]
      exact ⟨_, rfl⟩

example (ext : CovNearest) := gmc_roundtrip ext (m := 2) le_rfl (d := 2) (by norm_num) (fun i => i.val)
  (fun _ => by positivity) (fun i j => (i.val : ℝ) + j.val) (fun _ => (1 : Matrix (Fin 2) (Fin 2) ℝ)) fun _ => PosSemidef.one

/-- **C47.** When the probabilities lie strictly between 0 and 1 and sum to one, `to_vector` changes nothing and
the object comes back. -/
theorem gmc_roundtrip_self (ext : CovNearest) {m d : ℕ} (hm : 2 ≤ m) (hd : 1 ≤ d) (p : Fin m → ℝ)
    (hp : ∀ i, p i ∈ Set.Ioo (0 : ℝ) 1) (hs : ∑ i, p i = 1) (μ : Fin m → Fin d → ℝ)
    (S : Fin m → Matrix (Fin d) (Fin d) ℝ) (hS : ∀ i, (S i).PosSemidef) :
    (flParam p μ S).toVector.1 = flParam p μ S ∧
    fromVector ext m d (flParam p μ S).toVector.2 = .ok (flParam p μ S) := by
  have h := (gmc_roundtrip ext hm hd p (fun i => (hp i).1.le) μ S hS).1
  have e : (flParam p μ S).toVector.1 = flParam p μ S := by
    rw [toVector_fin hm p (fun i => (hp i).1.le) μ S, adjProb_self p hp hs]
  rw [e] at h
  exact ⟨e, h⟩

/-- The hypotheses are met, for example by two clusters in two dimensions. -/
example (ext : CovNearest) : fromVector ext 2 2
    (flParam (fun i : Fin 2 => if i = 0 then 1 / 4 else 3 / 4) (fun i j => (i.val : ℝ) + j.val)
      (fun _ => (1 : Matrix (Fin 2) (Fin 2) ℝ))).toVector.2 =
    .ok (flParam (fun i : Fin 2 => if i = 0 then 1 / 4 else 3 / 4) (fun i j => (i.val : ℝ) + j.val)
      (fun _ => (1 : Matrix (Fin 2) (Fin 2) ℝ))) :=
  (gmc_roundtrip_self ext le_rfl (by norm_num) _
    (fun i => by fin_cases i <;> norm_num) (by norm_num [Fin.sum_univ_two]) _ _ fun _ => PosSemidef.one).2

/-- **C47 is violated for one cluster**: the probability 1 has an infinite logit (it is moved below 1 and then
divided by itself), and `from_vector` refuses the vector. -/
theorem gmc_one_cluster_fails (ext : CovNearest) {d : ℕ} (hd : 1 ≤ d) (μ : Fin 1 → Fin d → ℝ)
    (S : Fin 1 → Matrix (Fin d) (Fin d) ℝ) (hS : ∀ i, (S i).PosSemidef) :
    fromVector ext 1 d (flParam (fun _ => 1) μ S).toVector.2 = .error .gmcParam := by
  have hadj : ∀ i : Fin 1, adjProb (fun _ : Fin 1 => (1 : ℝ)) i = 1 := by
    intro i
    simp only [adjProb, Finset.univ_unique, Finset.sum_const, Finset.card_singleton, one_smul]
    exact div_self (nudge_pos zero_le_one).ne'
  have hv : (flParam (fun _ => 1) μ S).toVector.2 = [Fl.pinf] ++
      (List.finRange 1).flatMap (fun i => List.ofFn fun j => Fl.fin (μ i j)) ++
      (List.finRange 1).flatMap (fun i => covUpper (flMat (S i))) := by
    have h1 : Fl.log (Fl.fin 1 / (Fl.fin 1 - Fl.fin 1)) = .pinf := by
      rw [Fl.fin_sub_fin, sub_self, Fl.fin_div_fin, if_pos rfl]
      simp [Fl.infSign, Fl.log]
    simp only [GMCParam.toVector, flParam, fixProb_fin (fun _ : Fin 1 => (1 : ℝ)) (fun _ => zero_le_one), hadj, h1]
    simp
  obtain ⟨f, g, hf, hg, h⟩ := fromVector_parts (m := 1) ext hd [Fl.pinf] rfl μ S fun i => (hS i).1
  have hp : setProb 1 (([Fl.pinf].map fun x => Fl.exp x / (.fin 1 + Fl.exp x)).map fun x =>
        x / ([Fl.pinf].map fun x => Fl.exp x / (.fin 1 + Fl.exp x)).sum) = .error .gmcParam := by
    have h1 : Fl.exp .pinf / (.fin 1 + Fl.exp .pinf) = .nan := rfl
    have h2 : Fl.nan + 0 = Fl.nan := rfl
    have h3 : Fl.nan / Fl.nan = Fl.nan := rfl
    simp only [List.map_cons, List.map_nil, h1, List.sum_cons, List.sum_nil, h2, h3]
    rw [setProb, dif_pos (by rfl), if_pos]
    right; right
    simp [h2, closeTo]
  rw [hv, h, GMCParam.mk', hp]
  rfl

example (ext : CovNearest) := gmc_one_cluster_fails ext (d := 2) (by norm_num) (fun _ j => j.val)
  (fun _ => (1 : Matrix (Fin 2) (Fin 2) ℝ)) fun _ => PosSemidef.one

/-- `to_vector` is not free of side effects: a zero probability of the object is changed. -/
theorem toVector_changes {m d : ℕ} (hm : 2 ≤ m) (p : Fin m → ℝ) (h0 : ∀ i, 0 ≤ p i) (i : Fin m) (hi : p i = 0)
    (μ : Fin m → Fin d → ℝ) (S : Fin m → Matrix (Fin d) (Fin d) ℝ) :
    (flParam p μ S).toVector.1 ≠ flParam p μ S := by
  rw [toVector_fin hm p h0 μ S]
  intro h
  have h1 := congrFun (flParam_injective h) i
  have h2 := (adjProb_mem hm p h0 i).1
  rw [h1, hi] at h2
  exact lt_irrefl _ h2

example := toVector_changes (m := 2) (d := 2) le_rfl (fun i => i.val) (fun _ => by positivity) 0 (by norm_num) (fun i j => (i.val : ℝ) + j.val)
  (fun _ => (1 : Matrix (Fin 2) (Fin 2) ℝ))

theorem mapM_ok_length {α β : Type} {f : α → Except PyErr β} {l : List α} {r : List β} (h : l.mapM f = .ok r) :
    r.length = l.length ∧ ∀ a ∈ l, ∃ b, f a = .ok b := by
  induction l generalizing r with
  | nil =>
    rw [List.mapM_nil] at h
    cases h
    simp
  | cons a l ih =>
    rw [List.mapM_cons] at h
    cases ha : f a with
    | error e => rw [ha] at h; cases h
    | ok b =>
      rw [ha] at h
      cases hl : l.mapM f with
      | error e => rw [hl] at h; cases h
      | ok r' =>
        rw [hl] at h
        cases h
        have := ih hl
        refine ⟨by simp [this.1], ?_⟩
        intro x hx
        rcases List.mem_cons.mp hx with rfl | hx
        · exact ⟨b, ha⟩
        · exact this.2 x hx

theorem covOfUpper_length {d : ℕ} {l : List Fl} {c : SqMat Fl d} (h : covOfUpper d l = .ok c) :
    l.length = d * (d + 1) / 2 ∨ l.length = 1 := by
  have hz : (triuPairs d).unzip.1.zip (triuPairs d).unzip.2 = triuPairs d := List.zip_unzip _
  unfold covOfUpper fancyAssign at h
  simp only [hz, length_triuPairs] at h
  split_ifs at h with h1 h2
  · cases h
  · exact Or.inl h2
  · match l, h2, h with
    | [v], _, _ => exact Or.inr rfl
    | [], _, h => cases h
    | _ :: _ :: _, _, h => cases h

theorem blocks_length {step : ℕ} (hstep : 0 < step) (fuel : ℕ) (l : List Fl) (hf : l.length ≤ fuel)
    (h : ∀ b ∈ blocks step fuel l, b.length = step ∨ b.length = 1) :
    l.length = (blocks step fuel l).length * step ∨
      (0 < (blocks step fuel l).length ∧ l.length = ((blocks step fuel l).length - 1) * step + 1) := by
  induction fuel generalizing l with
  | zero =>
    obtain rfl := List.length_eq_zero_iff.mp (Nat.le_zero.mp hf)
    simp [blocks]
  | succ fuel ih =>
    cases l with
    | nil => simp [blocks]
    | cons a l =>
      have e : blocks step (fuel + 1) (a :: l) =
          (a :: l).take step :: blocks step fuel ((a :: l).drop step) := rfl
      rw [e] at h ⊢
      have hlen : ((a :: l).drop step).length ≤ fuel := by
        rw [List.length_drop]; simp only [List.length_cons] at hf ⊢; omega
      have hb := ih _ hlen fun b hb => h b (List.mem_cons_of_mem _ hb)
      have h1 := h _ List.mem_cons_self
      rw [List.length_take] at h1
      rw [List.length_drop] at hb
      rw [List.length_cons (a := (a :: l).take step)]
      set L := (a :: l).length with hL
      set k := (blocks step fuel ((a :: l).drop step)).length with hk
      have hLpos : 0 < L := by simp [hL]
      rcases le_or_gt step L with hle | hgt
      · rcases hb with hb | ⟨hk0, hb⟩
        · left; rw [add_mul, one_mul]; omega
        · right
          refine ⟨by omega, ?_⟩
          obtain ⟨k', hk'⟩ : ∃ k', k = k' + 1 := ⟨k - 1, by omega⟩
          rw [hk'] at hb ⊢
          simp only [Nat.add_sub_cancel] at hb ⊢
          rw [add_mul, one_mul]
          omega
      · have hk0 : k = 0 := by
          have : (a :: l).drop step = [] := List.drop_eq_nil_of_le hgt.le
          rw [hk, this]
          cases fuel <;> rfl
        right
        refine ⟨by omega, ?_⟩
        rw [hk0]
        simp only [zero_add, Nat.sub_self, zero_mul]
        omega

/-- **C68, the part that holds.** `from_vector` accepts only vectors of the right length, or of the length of a
vector whose last covariance block is a single number. -/
theorem fromVector_length_partial (ext : CovNearest) (m d : ℕ) (v : List Fl) (s : GMCParam m d) (hm : 1 ≤ m)
    (h : fromVector ext m d v = .ok s) :
    v.length = m + m * d + m * (d * (d + 1) / 2) ∨ v.length = m + m * d + ((m - 1) * (d * (d + 1) / 2) + 1) := by
  rw [fromVector] at h
  simp only [bind, Except.bind] at h
  by_cases h1 : ((v.drop m).take (m * d)).length ≠ m * d
  · rw [if_pos h1] at h; cases h
  by_cases h2 : d * (d + 1) / 2 = 0
  · simp only [if_neg h1, if_pos h2] at h; cases h
  · simp only [if_neg h1, if_neg h2] at h
    cases hc : (blocks (d * (d + 1) / 2) (v.drop (m + m * d)).length (v.drop (m + m * d))).mapM (covOfUpper d) with
    | error e => simp only [hc] at h; cases h
    | ok covs =>
      simp only [hc] at h
      have hk : covs.length = m := by
        by_contra hne
        rw [GMCParam.mk'] at h
        have hsc : ∀ g, setCovs ext m d ⟨covs.length, d, d, g⟩ = .error .gmcParam := fun g => by
          rw [setCovs, if_neg fun hh => hne hh.1]
        simp only [bind, Except.bind, hsc] at h
        split at h
        · cases h
        · split at h
          · cases h
          · cases h
      obtain ⟨hl, hall⟩ := mapM_ok_length hc
      have hb := blocks_length (Nat.pos_of_ne_zero h2) _ _ le_rfl fun b hb => by
        obtain ⟨c, hc⟩ := hall b hb
        exact covOfUpper_length hc
      rw [← hl, hk] at hb
      rw [List.length_drop] at hb
      have hms : m + m * d ≤ v.length := by
        rw [not_not, List.length_take, List.length_drop] at h1
        rcases Nat.eq_zero_or_pos (m * d) with h0 | h0
        · have hd : d = 0 := by
            rcases Nat.mul_eq_zero.mp h0 with h | h
            · omega
            · exact h
          exact absurd (by rw [hd]) h2
        · omega
      rcases hb with hb | ⟨_, hb⟩
      · left; omega
      · right; omega

example (ext : CovNearest) := fromVector_length_partial ext 2 2 _ _ (by norm_num)
  (gmc_roundtrip ext (m := 2) le_rfl (d := 2) (by norm_num) (fun i => i.val)
    (fun _ => by positivity) (fun i j => (i.val : ℝ) + j.val) (fun _ => (1 : Matrix (Fin 2) (Fin 2) ℝ)) fun _ => PosSemidef.one).1

theorem blocks_append_last (step : ℕ) (hstep : 1 < step) (f : ℕ → List Fl) (hf : ∀ i, (f i).length = step) (k a : ℕ)
    (x : Fl) (fuel : ℕ) (h : k + 1 ≤ fuel) :
    blocks step fuel ((List.range' a k).flatMap f ++ [x]) = (List.range' a k).map f ++ [[x]] := by
  induction k generalizing a fuel with
  | zero =>
    obtain ⟨fuel, rfl⟩ : ∃ k, fuel = k + 1 := ⟨fuel - 1, by omega⟩
    have e : blocks step (fuel + 1) [x] = [x].take step :: blocks step fuel ([x].drop step) := rfl
    have h1 : [x].take step = [x] := List.take_of_length_le (by simp; omega)
    have h2 : [x].drop step = [] := List.drop_eq_nil_of_le (by simp; omega)
    simp only [List.range'_zero, List.flatMap_nil, List.nil_append, List.map_nil]
    rw [e, h1, h2]
    cases fuel <;> rfl
  | succ k ih =>
    obtain ⟨fuel, rfl⟩ : ∃ k, fuel = k + 1 := ⟨fuel - 1, by omega⟩
    rw [List.range'_succ, List.flatMap_cons, List.map_cons, List.append_assoc, List.cons_append, blocks]
    · rw [← hf a, List.take_left, List.drop_left, hf a, ih (a + 1) fuel (by omega)]
    · intro h0
      have := congrArg List.length h0
      simp at this

/-- **C68 is violated**: in two dimensions a vector two numbers short is accepted; the last number becomes every
entry of the last covariance matrix. For every number of clusters, all probabilities, means, covariances and
every non-negative last number `x`. -/
theorem fromVector_short (ext : CovNearest) {m : ℕ} (p : Fin (m + 1) → ℝ) (hp : ∀ i, p i ∈ Set.Ioo (0 : ℝ) 1)
    (hs : ∑ i, p i = 1) (μ : Fin (m + 1) → Fin 2 → ℝ) (S : ℕ → Matrix (Fin 2) (Fin 2) ℝ)
    (hS : ∀ i, (S i).PosSemidef) (x : ℝ) (hx : 0 ≤ x) :
    fromVector ext (m + 1) 2 ((List.ofFn fun i => Fl.fin (Real.log (p i / (1 - p i)))) ++
      (List.finRange (m + 1)).flatMap (fun i => List.ofFn fun j => Fl.fin (μ i j)) ++
      ((List.range' 0 m).flatMap (fun i => covUpper (flMat (S i))) ++ [Fl.fin x])) =
    .ok (flParam p μ fun i => if i.val < m then S i else fun _ _ => x) := by
  set T : Fin (m + 1) → Matrix (Fin 2) (Fin 2) ℝ := fun i => if i.val < m then S i else fun _ _ => x with hT
  have hlast : covOfUpper 2 [Fl.fin x] = .ok (flMat fun _ _ => x) := by
    have ht : triuPairs 2 = [(0, 0), (0, 1), (1, 1)] := rfl
    unfold covOfUpper fancyAssign
    rw [ht]
    simp only [bind, Except.bind, pure, Except.pure, List.unzip, List.zip_cons_cons, List.zip_nil_right,
      List.any_cons, List.any_nil, List.length_cons, List.length_nil, List.map_cons, List.map_nil]
    norm_num
    funext i j
    fin_cases i <;> fin_cases j <;> simp [setCells, setCell, flMat]
  have hTp : ∀ i, (T i).PosSemidef := by
    intro i
    by_cases hi : i.val < m
    · have e : T i = S i := if_pos hi
      rw [e]
      exact hS _
    · have e : T i = fun _ _ => x := if_neg hi
      rw [e]
      have h : (fun _ _ => x : Matrix (Fin 2) (Fin 2) ℝ) = x • vecMulVec (1 : Fin 2 → ℝ) (star 1) := by
        ext a b
        simp [vecMulVec]
      rw [h]
      exact (posSemidef_vecMulVec_self_star _).smul hx
  obtain ⟨f, g, hf, hg, h⟩ := fromVector_parts' ext (m := m + 1) (d := 2) (by norm_num)
    (List.ofFn fun i => Fl.fin (Real.log (p i / (1 - p i))))
    ((List.range' 0 m).flatMap (fun i => covUpper (flMat (S i))) ++ [Fl.fin x]) List.length_ofFn μ T (by
      have hl : m + 1 ≤ ((List.range' 0 m).flatMap (fun i => covUpper (flMat (S i))) ++ [Fl.fin x]).length := by
        rw [List.length_append, List.length_flatMap]
        simp [covUpper_length]
        omega
      rw [blocks_append_last _ (by norm_num) _ (fun i => covUpper_length _) m 0 _ _ hl, List.mapM_append,
        List.mapM_map]
      have h1 := mapM_ok (fun i => covOfUpper 2 (covUpper (flMat (S i)))) (fun i => flMat (S i)) (List.range' 0 m)
        fun i _ => covOfUpper_upper (S i) (hS i).1
      have h2 : ([[Fl.fin x]].mapM (covOfUpper 2)) = .ok [flMat fun _ _ => x] := by
        rw [List.mapM_cons, hlast]; rfl
      have h3 : (List.mapM (covOfUpper 2 ∘ fun i => covUpper (flMat (S i))) (List.range' 0 m)) =
        .ok ((List.range' 0 m).map fun i => flMat (S i)) := h1
      rw [h3, h2]
      simp only [bind, Except.bind, pure, Except.pure]
      congr 1
      apply List.ext_getElem
      · simp
      · intro k hk1 hk2
        rw [List.getElem_map, List.getElem_finRange]
        simp only [List.length_append, List.length_map, List.length_range', List.length_singleton] at hk1
        rcases Nat.lt_succ_iff_lt_or_eq.mp hk1 with hlt | heq
        · rw [List.getElem_append_left (by simpa using hlt)]
          simp [hT, hlt]
        · subst heq
          simp [hT])
  rw [h, logistic_logit p hp hs]
  exact mk'_ok ext p (fun i => (hp i).1.le) (fun i => (hp i).2.le) (by rw [hs]; norm_num) μ T hTp _ rfl _ hf _ hg

example (ext : CovNearest) := fromVector_short ext (m := 1) ![1 / 4, 3 / 4]
  (by intro i; fin_cases i <;> norm_num) (by simp [Fin.sum_univ_two]; norm_num) (fun i j => (i.val : ℝ) + j.val)
  (fun _ => (1 : Matrix (Fin 2) (Fin 2) ℝ)) (fun _ => PosSemidef.one) 2 (by norm_num)

end Copulae
