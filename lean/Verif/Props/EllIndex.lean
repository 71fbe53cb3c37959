import Verif.Props.Elliptical

/-!
C76: every form of index reads and writes the correlations it names — a single number counts the pairs row by
row, negative numbers count from the end when reading, and a slice in one place selects a row or column.
-/

namespace Copulae

open Classical

/-- `p` is the position that index `k` names in a sequence of length `n`: counted from the front, or from
the end if negative. -/
def Spec.IxAt (n : ℕ) (k : ℤ) (p : ℕ) : Prop := p < n ∧ ((p : ℤ) = k ∨ (p : ℤ) = n + k)

/-- Position of the pair `i < j` when the pairs are listed row by row. -/
def Spec.pairPos (d i j : ℕ) : ℕ := (∑ a ∈ Finset.range i, (d - 1 - a)) + (j - i - 1)

theorem flatMap_range_get {β : Type} (g : ℕ → List β) : ∀ (n i k : ℕ), i < n → k < (g i).length →
    ((List.range n).flatMap g)[(∑ a ∈ Finset.range i, (g a).length) + k]? = (g i)[k]? := by
  intro n
  induction n with
  | zero => intro i k h; omega
  | succ n ih =>
    intro i k hi hk
    rw [List.range_succ, List.flatMap_append]
    have hlen : ∀ m, ((List.range m).flatMap g).length = ∑ a ∈ Finset.range m, (g a).length := by
      intro m
      induction m with
      | zero => simp
      | succ m ihm => rw [List.range_succ, List.flatMap_append, List.length_append, ihm, Finset.sum_range_succ]; simp
    rcases Nat.lt_succ_iff_lt_or_eq.1 hi with h | h
    · rw [List.getElem?_append_left, ih i k h hk]
      rw [hlen]
      calc _ < (∑ a ∈ Finset.range i, (g a).length) + (g i).length := by omega
        _ = ∑ a ∈ Finset.range (i + 1), (g a).length := (Finset.sum_range_succ _ _).symm
        _ ≤ _ := Finset.sum_le_sum_of_subset (by
            intro a ha
            simp only [Finset.mem_range] at ha ⊢
            omega)
    · subst h
      rw [List.getElem?_append_right (by rw [hlen]; omega), hlen]
      simp

theorem rhoPos_eq {d i j : ℕ} (h : i < j) (hj : j < d) : rhoPos d i j = Spec.pairPos d i j := by
  have hget : (triLoop d 1)[Spec.pairPos d i j]? = some (i, j) := by
    unfold triLoop Spec.pairPos
    have := flatMap_range_get (fun i => (List.range' (i + 1) (d - (i + 1))).map fun j => (i, j)) (d - 1) i
      (j - i - 1) (by omega) (by simp; omega)
    simp only [List.length_map, List.length_range'] at this
    have e : ∀ a, d - 1 - a = d - (a + 1) := fun a => by omega
    simp only [e]
    rw [this, List.getElem?_map, List.getElem?_range' (by omega)]
    simp; omega
  have hlt : Spec.pairPos d i j < d * (d - 1) / 2 := by
    obtain ⟨hl, -⟩ := List.getElem?_eq_some_iff.1 hget
    rwa [length_triLoop_one] at hl
  obtain ⟨a, b, hab, hb, he⟩ := rhoPos_surj hlt
  have := triLoop_rhoPos hab hb
  rw [he, hget] at this
  simp only [Option.some.injEq, Prod.mk.injEq] at this
  rw [← he, this.1, this.2]

theorem npPos_ok {n : ℕ} {k : ℤ} {p : ℕ} (h : Spec.IxAt n k p) : npPos n k = .ok p := by
  obtain ⟨h1, h2 | h2⟩ := h
  · unfold npPos
    rw [if_pos ⟨by omega, by omega⟩, ← h2]
    simp
  · unfold npPos
    rw [if_neg (by omega), if_pos ⟨by omega, by omega⟩, ← h2]
    simp

theorem npPos_error {n : ℕ} {k : ℤ} (h : ∀ p, ¬ Spec.IxAt n k p) : npPos n k = .error .indexError := by
  unfold npPos
  rw [if_neg, if_neg]
  · rintro ⟨h1, h2⟩
    exact h (n + k).toNat ⟨by omega, .inr (by omega)⟩
  · rintro ⟨h1, h2⟩
    exact h k.toNat ⟨by omega, .inl (by omega)⟩

/-- **C76** `cop[k]` is the correlation of the `k`-th pair, the pairs being listed row by row and negative
numbers counting from the end; other numbers raise `IndexError`. -/
theorem getItem_int {s : Ell} (hs : s.WF) (k : ℤ) :
    (∀ i j : ℕ, i < j → j < s.dim → Spec.IxAt (s.dim * (s.dim - 1) / 2) k (Spec.pairPos s.dim i j) →
      s.getItem (.int k) = s.getItem (ixPair i j)) ∧
    ((k < -((s.dim * (s.dim - 1) / 2 : ℕ) : ℤ) ∨ ((s.dim * (s.dim - 1) / 2 : ℕ) : ℤ) ≤ k) →
      s.getItem (.int k) = .error .indexError) := by
  refine ⟨fun i j hij hj h => ?_, fun h => ?_⟩
  · obtain ⟨M, h1, -, -, h4⟩ := Ell.sigma_ok hs
    have hp := h4 ⟨i, by omega⟩ ⟨j, hj⟩ hij
    have hpos := rhoPos_eq hij hj
    simp only [hpos] at hp
    rw [getItem_pair h1 ⟨i, by omega⟩ ⟨j, hj⟩]
    rw [← hs.2] at h
    simp only [Ell.getItem, npPos_ok h, bind, Except.bind, hp, pure, Except.pure]
  · have : npPos s.rhos.length k = .error .indexError :=
      npPos_error fun p hp => by
        have := hp.1
        have := hp.2
        rw [hs.2] at *
        omega
    simp only [Ell.getItem, this, bind, Except.bind]

example := getItem_int (s := Ell.init 4) (Ell.init_wf (by norm_num)) (-1)

/-- **C76** Reading with two numbers: negative numbers count from the end, numbers out of range raise
`IndexError`. -/
theorem getItem_negative {s : Ell} (hs : s.WF) (x y : ℤ) :
    (∀ i j : ℕ, Spec.IxAt s.dim x i → Spec.IxAt s.dim y j → s.getItem (ixPair x y) = s.getItem (ixPair i j)) ∧
    ((∀ i, ¬ Spec.IxAt s.dim x i) ∨ (∀ j, ¬ Spec.IxAt s.dim y j) →
      s.getItem (ixPair x y) = .error .indexError) := by
  obtain ⟨M, h1, -, -, -⟩ := Ell.sigma_ok hs
  refine ⟨fun i j hi hj => ?_, fun h => ?_⟩
  · rw [getItem_pair h1 ⟨i, hi.1⟩ ⟨j, hj.1⟩]
    simp only [Ell.getItem, h1, bind, Except.bind, npPos_ok hi, npPos_ok hj, pure, Except.pure]
    rw [dif_pos ⟨hi.1, hj.1⟩]
  · by_cases hx : ∃ i, Spec.IxAt s.dim x i
    · obtain ⟨i, hi⟩ := hx
      rcases h with h | h
      · exact absurd hi (h i)
      · simp only [Ell.getItem, h1, bind, Except.bind, npPos_ok hi, npPos_error h]
    · simp only [Ell.getItem, h1, bind, Except.bind, npPos_error (not_exists.1 hx)]

example := getItem_negative (s := Ell.init 4) (Ell.init_wf (by norm_num)) (-1) 2

/-- **C76** `cop[x, :]` and `cop[:, x]` are the row and the column of the correlation matrix, with a one at
position `x`: the entries are those read one by one. -/
theorem getItem_rows {s : Ell} (hs : s.WF) {x : ℤ} {i : ℕ} (hx : Spec.IxAt s.dim x i) :
    ∃ r : Fin s.dim → Fl, s.getItem (.tuple [.int x, .slice]) = .ok (.vec (List.ofFn r)) ∧
      s.getItem (.tuple [.slice, .int x]) = .ok (.vec (List.ofFn r)) ∧
      ∀ j : Fin s.dim, s.getItem (ixPair i j) = .ok (.scalar (r j)) ∧ (j.val = i → r j = .fin 1) := by
  obtain ⟨M, h1, h2, h3, -⟩ := Ell.sigma_ok hs
  refine ⟨fun j => M ⟨i, hx.1⟩ j, ?_, ?_, fun j => ⟨getItem_pair h1 ⟨i, hx.1⟩ j, ?_⟩⟩
  · simp only [Ell.getItem, h1, bind, Except.bind, npPos_ok hx, pure, Except.pure]
    rw [dif_pos hx.1]
  · simp only [Ell.getItem, h1, bind, Except.bind, npPos_ok hx, pure, Except.pure]
    rw [dif_pos hx.1]
    simp only [h3 _ ⟨i, hx.1⟩]
  · rintro rfl
    exact h2 j

example := getItem_rows (s := Ell.init 4) (Ell.init_wf (by norm_num)) (x := -1) (i := 3) ⟨by decide, .inr (by decide)⟩

/-- **C76** `cop[k] = v` is `cop[i, j] = v` for the `k`-th pair `(i, j)`. -/
theorem setItem_int (ext : CovNearest) {s : Ell} (hs : s.WF) {k : ℤ} {i j : ℕ} (hij : i < j) (hj : j < s.dim)
    (hk : Spec.IxAt (s.dim * (s.dim - 1) / 2) k (Spec.pairPos s.dim i j)) (v : Fl) :
    s.setItem ext (.int k) (.scalar v) = s.setItem ext (ixPair i j) (.scalar v) := by
  rw [← hs.2] at hk
  have hg : getRhoIndex s.dim i j = .ok (Spec.pairPos s.dim i j) := by
    rw [getRhoIndex_ok (by omega) hj (by omega), min_eq_left hij.le, max_eq_right hij.le, rhoPos_eq hij hj]
  unfold Ell.setItem
  by_cases hr : rangeOk (.scalar v)
  · simp only [hr, not_true_eq_false, if_false, npPos_ok hk, bind, Except.bind, storeCell, PyVal.flat, hg]
  · simp only [hr, not_false_eq_true, if_true]

example (ext : CovNearest) := setItem_int ext (s := Ell.init 4) (Ell.init_wf (by norm_num)) (k := -1) (i := 2) (j := 3)
  (by decide) (by decide) ⟨by decide, .inr (by decide)⟩ (.fin (1 / 2))

theorem rowLoop_cells {d x : ℕ} (hx : x < d) {pair : ℕ → ℤ × ℤ}
    (hpair : (∀ k, pair k = ((k : ℤ), (x : ℤ))) ∨ ∀ k, pair k = ((x : ℤ), (k : ℤ))) (vs : List Fl) :
    ∀ (i : ℕ) (rhos : List Fl), i + vs.length = d → rhos.length = d * (d - 1) / 2 →
      ∃ rhos', rowLoop d pair i (vs.map fun v => [v]) rhos = (rhos', .ok ()) ∧
        rhos'.length = d * (d - 1) / 2 ∧
        (∀ k, i ≤ k → k < d → k ≠ x → rhos'[rhoPos d (min x k) (max x k)]? = vs[k - i]?) ∧
        ∀ a b, a < b → b < d → (∀ k, i ≤ k → k ≠ x → ¬ (a = min x k ∧ b = max x k)) →
          rhos'[rhoPos d a b]? = rhos[rhoPos d a b]? := by
  induction vs with
  | nil =>
    intro i rhos h1 h2
    refine ⟨rhos, rfl, h2, fun k hk hkd => ?_, fun a b _ _ _ => rfl⟩
    simp at h1
    omega
  | cons v vs ih =>
    intro i rhos h1 h2
    simp only [List.length_cons] at h1
    simp only [List.map_cons]
    unfold rowLoop
    by_cases hxi : i = x
    · have hp : (pair i).1 = (pair i).2 := by
        rcases hpair with h | h <;> rw [h, hxi]
      rw [if_pos hp]
      obtain ⟨r, e1, e2, e3, e4⟩ := ih (i + 1) rhos (by omega) h2
      refine ⟨r, e1, e2, fun k hk hkd hkx => ?_, fun a b hab hb hc => e4 a b hab hb fun k hk => hc k (by omega)⟩
      rw [e3 k (by omega) hkd hkx]
      obtain ⟨m, rfl⟩ : ∃ m, k = i + 1 + m := ⟨k - (i + 1), by omega⟩
      rw [show i + 1 + m - (i + 1) = m by omega, show i + 1 + m - i = m + 1 by omega, List.getElem?_cons_succ]
    · have hp : ¬ (pair i).1 = (pair i).2 := by
        rcases hpair with h | h <;> rw [h] <;> simp <;> omega
      have hg : getRhoIndex d (pair i).1 (pair i).2 = .ok (rhoPos d (min x i) (max x i)) := by
        rcases hpair with h | h <;> rw [h]
        · simp only
          rw [getRhoIndex_ok (by omega) hx hxi, min_comm, max_comm]
        · exact getRhoIndex_ok hx (by omega) (Ne.symm hxi)
      rw [if_neg hp]
      simp only [hg, bind, Except.bind, storeCell]
      obtain ⟨r, e1, e2, e3, e4⟩ := ih (i + 1) (rhos.set (rhoPos d (min x i) (max x i)) v) (by omega)
        (by simpa using h2)
      refine ⟨r, e1, e2, fun k hk hkd hkx => ?_, fun a b hab hb hc => ?_⟩
      · rcases Nat.eq_or_lt_of_le hk with h | h
        · subst h
          rw [e4 _ _ (by omega) (by omega) (fun k hk hkx h => by omega)]
          have : rhoPos d (min x i) (max x i) < rhos.length := by
            rw [h2]; exact rhoPos_lt (by omega) (by omega)
          simp [this]
        · rw [e3 k (by omega) hkd hkx]
          obtain ⟨m, rfl⟩ : ∃ m, k = i + 1 + m := ⟨k - (i + 1), by omega⟩
          rw [show i + 1 + m - (i + 1) = m by omega, show i + 1 + m - i = m + 1 by omega,
            List.getElem?_cons_succ]
      · rw [e4 a b hab hb fun k hk => hc k (by omega), List.getElem?_set_ne]
        intro he
        have := rhoPos_inj (by omega : min x i < max x i) (by omega) hab hb he
        exact hc i le_rfl hxi ⟨this.1.symm, this.2.symm⟩

/-- **C76** `cop[x, :] = l` and `cop[:, x] = l` store `l[k]` as the correlation of `x` and `k` for every
`k ≠ x` (`l[x]` is ignored) and leave the pairs without `x` alone, provided that the resulting matrix `M`
passes the library's test (so that no repair is needed). -/
theorem setItem_row (ext : CovNearest) {s : Ell} (hs : s.WF) {x : ℕ} (hx : x < s.dim) (l : Fin s.dim → ℝ)
    (hl : ∀ k, -1 ≤ l k ∧ l k ≤ 1) (M : SqMat Fl s.dim) (hM1 : ∀ a, M a a = .fin 1)
    (hMx : ∀ k : Fin s.dim, k.val ≠ x → M ⟨x, hx⟩ k = .fin (l k) ∧ M k ⟨x, hx⟩ = .fin (l k))
    (hMo : ∀ a b : Fin s.dim, a.val ≠ x → b.val ≠ x → s.getItem (ixPair a b) = .ok (.scalar (M a b)))
    (hpsd : isPsd M) (ix : Ix) (hix : ix = .tuple [.int x, .slice] ∨ ix = .tuple [.slice, .int x]) :
    (s.setItem ext ix (.vec (List.ofFn fun k => Fl.fin (l k)))).2 = .ok () ∧
    ∀ a b : Fin s.dim, (s.setItem ext ix (.vec (List.ofFn fun k => Fl.fin (l k)))).1.getItem (ixPair a b)
      = .ok (.scalar (M a b)) := by
  obtain ⟨S, hS, hS1, hS2, hS3⟩ := Ell.sigma_ok hs
  have hr : rangeOk (.vec (List.ofFn fun k => Fl.fin (l k))) := by
    intro v hv
    obtain ⟨k, rfl⟩ := List.mem_ofFn.1 hv
    have h0 : (0 : ℝ) ≤ EPS := by unfold EPS; positivity
    have := hl k
    exact ⟨by rw [Fl.fin_le_fin]; linarith, by rw [Fl.fin_le_fin]; linarith⟩
  have key : ∀ pair : ℕ → ℤ × ℤ,
      ((∀ k, pair k = ((k : ℤ), (x : ℤ))) ∨ ∀ k, pair k = ((x : ℤ), (k : ℤ))) →
      ∃ rhos', Ell.WF ⟨s.dim, rhos'⟩ ∧ Ell.sigma ⟨s.dim, rhos'⟩ = .ok ⟨s.dim, M⟩ ∧
        s.setRow ext pair (.vec (List.ofFn fun k => Fl.fin (l k))) = (⟨s.dim, rhos'⟩, .ok ()) := by
    intro pair hpair
    obtain ⟨r, e1, e2, e3, e4⟩ := rowLoop_cells hx hpair (List.ofFn fun k => Fl.fin (l k)) 0 s.rhos
      (by simp) hs.2
    have hw : Ell.WF ⟨s.dim, r⟩ := ⟨hs.1, e2⟩
    have hsig : Ell.sigma ⟨s.dim, r⟩ = .ok ⟨s.dim, M⟩ := by
      obtain ⟨N, n1, n2, n3, n4⟩ := Ell.sigma_ok hw
      have hlt : ∀ a b : Fin s.dim, a < b → N a b = M a b := by
        intro a b hab
        have hab' : a.val < b.val := hab
        have h5 := n4 a b hab
        simp only at h5
        by_cases ha : a.val = x
        · have := e3 b.val (by omega) b.2 (by omega)
          rw [← ha, min_eq_left hab'.le, max_eq_right hab'.le, h5] at this
          simp only [Nat.sub_zero, List.getElem?_ofFn, b.2, dif_pos, Option.some.injEq] at this
          have h6 := (hMx b (by omega)).1
          have hax : a = ⟨x, hx⟩ := Fin.ext ha
          rw [hax] at this ⊢
          rw [h6, this]
        · by_cases hb : b.val = x
          · have := e3 a.val (by omega) a.2 ha
            rw [← hb, min_eq_right hab'.le, max_eq_left hab'.le, h5] at this
            simp only [Nat.sub_zero, List.getElem?_ofFn, a.2, dif_pos, Option.some.injEq] at this
            have h6 := (hMx a ha).2
            have hbx : b = ⟨x, hx⟩ := Fin.ext hb
            rw [hbx] at this ⊢
            rw [h6, this]
          · have := e4 a b hab' b.2 (fun k _ hkx h => by omega)
            rw [h5, hS3 a b hab] at this
            have h6 := hMo a b ha hb
            rw [getItem_pair hS] at h6
            simp only [Except.ok.injEq, PyVal.scalar.injEq] at h6
            rw [← h6]
            simpa using this
      rw [n1]
      congr 2
      funext a b
      rcases lt_trichotomy a b with h | h | h
      · exact hlt a b h
      · rw [h, n2, hM1]
      · rw [n3, hlt b a h]
        by_cases ha : a.val = x
        · have hax : a = ⟨x, hx⟩ := Fin.ext ha
          have hb : b.val ≠ x := by have : b.val < a.val := h; omega
          rw [hax, (hMx b hb).1, (hMx b hb).2]
        · by_cases hb : b.val = x
          · have hbx : b = ⟨x, hx⟩ := Fin.ext hb
            rw [hbx, (hMx a ha).1, (hMx a ha).2]
          · have h6 := hMo a b ha hb
            have h7 := hMo b a hb ha
            rw [getItem_pair hS] at h6 h7
            simp only [Except.ok.injEq, PyVal.scalar.injEq] at h6 h7
            rw [← h6, ← h7, hS2]
    refine ⟨r, hw, hsig, ?_⟩
    unfold Ell.setRow
    simp only [PyVal.rows, List.length_map, List.length_ofFn, ne_eq, not_true_eq_false, if_false, e1]
    exact forcePsd_of_psd hw hsig hpsd
  have fin : ∀ r : List Fl, Ell.WF ⟨s.dim, r⟩ → Ell.sigma ⟨s.dim, r⟩ = .ok ⟨s.dim, M⟩ → ∀ a b : Fin s.dim,
      Ell.getItem ⟨s.dim, r⟩ (ixPair a b) = .ok (.scalar (M a b)) :=
    fun r _ h a b => getItem_pair (s := ⟨s.dim, r⟩) h a b
  rcases hix with rfl | rfl
  · obtain ⟨r, w, hsig, h⟩ := key (fun i => ((x : ℤ), (i : ℤ))) (.inr fun _ => rfl)
    simp only [Ell.setItem, hr, not_true_eq_false, if_false, h]
    exact ⟨trivial, fin r w hsig⟩
  · obtain ⟨r, w, hsig, h⟩ := key (fun i => ((i : ℤ), (x : ℤ))) (.inl fun _ => rfl)
    simp only [Ell.setItem, hr, not_true_eq_false, if_false, h]
    exact ⟨trivial, fin r w hsig⟩

/-- **C76** Rows and columns cannot be assigned through negative numbers, although they can be read: such an
assignment raises `IndexError` and changes nothing. -/
theorem setItem_row_negative (ext : CovNearest) {s : Ell} (hs : 2 ≤ s.dim) {x : ℤ} (hx : x < 0) (v : ℝ)
    (hv : -1 ≤ v ∧ v ≤ 1) (ix : Ix) (hix : ix = .tuple [.int x, .slice] ∨ ix = .tuple [.slice, .int x]) :
    s.setItem ext ix (.scalar (.fin v)) = (s, .error .indexError) := by
  have hr : rangeOk (.scalar (.fin v)) := by
    simp only [rangeOk, Fl.fin_lt_fin, not_or, not_lt]
    exact hv
  obtain ⟨m, hm⟩ : ∃ m, s.dim = m + 1 := ⟨s.dim - 1, by omega⟩
  have key : ∀ pair : ℕ → ℤ × ℤ, (pair 0).1 ≠ (pair 0).2 → ((pair 0).1 < 0 ∨ (pair 0).2 < 0) →
      s.setRow ext pair (.scalar (.fin v)) = (s, .error .indexError) := by
    intro pair h1 h2
    unfold Ell.setRow
    have hg : getRhoIndex s.dim (pair 0).1 (pair 0).2 = .error .indexError :=
      getRhoIndex_error (by tauto)
    simp only [PyVal.rows, List.length_replicate, ne_eq, not_true_eq_false, if_false]
    have : rowLoop s.dim pair 0 (List.replicate s.dim [Fl.fin v]) s.rhos = (s.rhos, .error .indexError) := by
      conv_lhs => rw [show List.replicate s.dim [Fl.fin v] = [Fl.fin v] :: List.replicate m [Fl.fin v] by
        rw [hm, List.replicate_succ]]
      unfold rowLoop
      simp only [if_neg h1, hg, bind, Except.bind]
    simp only [this]
  rcases hix with rfl | rfl <;> simp only [Ell.setItem, hr, not_true_eq_false, if_false]
  · exact key _ (by simp; omega) (.inl hx)
  · exact key _ (by simp; omega) (.inr hx)

/-- Instance: in four dimensions the last pair, `cop[-1]`, is the pair `(2, 3)`; the fourth, `cop[3]`, is
`(1, 2)`. -/
example : Spec.IxAt (4 * (4 - 1) / 2) (-1) (Spec.pairPos 4 2 3) ∧
    Spec.IxAt (4 * (4 - 1) / 2) 3 (Spec.pairPos 4 1 2) := by
  refine ⟨⟨by decide, .inr (by decide)⟩, ⟨by decide, .inl (by decide)⟩⟩

/-- Instance for `setItem_row`: three dimensions, the first row of a fresh copula becomes `(1, 1/2, 1/2)`. -/
example (ext : CovNearest) :
    ((Ell.init 3).setItem ext (.tuple [.int (0 : ℕ), .slice])
      (.vec (List.ofFn fun k : Fin 3 => Fl.fin ((![1, 1 / 2, 1 / 2] : Fin 3 → ℝ) k)))).2 = .ok () := by
  have hs : (Ell.init 3).WF := Ell.init_wf (by norm_num)
  obtain ⟨S, h1, h2, h3, h4⟩ : ∃ S : SqMat Fl 3, (Ell.init 3).sigma = .ok ⟨3, S⟩ ∧
      (∀ i, S i i = .fin 1) ∧ (∀ i j, S i j = S j i) ∧
      ∀ i j : Fin 3, i < j → (Ell.init 3).rhos[rhoPos 3 i j]? = some (S i j) := Ell.sigma_ok hs
  have h12 : S 1 2 = .fin 0 := by
    have := List.mem_of_getElem? (h4 1 2 (by decide))
    simp only [Ell.init, List.mem_replicate] at this
    exact this.2
  have h21 : S 2 1 = .fin 0 := (h3 2 1).trans h12
  have d1 := h2 1
  have d2 := h2 2
  refine (setItem_row ext hs (x := 0) (by decide) (![1, 1 / 2, 1 / 2] : Fin 3 → ℝ) ?_
    (fun a b => Fl.fin ((![![1, 1 / 2, 1 / 2], ![1 / 2, 1, 0], ![1 / 2, 0, 1]] : Fin 3 → Fin 3 → ℝ) a b))
    ?_ ?_ ?_ ?_ _ (.inl rfl)).1
  · intro k
    change Fin 3 at k
    fin_cases k <;> norm_num
  · intro a
    change Fin 3 at a
    fin_cases a <;> rfl
  · intro k hk
    change Fin 3 at k
    fin_cases k <;> first | exact absurd rfl hk | exact ⟨rfl, rfl⟩
  · intro a b ha hb
    rw [getItem_pair h1]
    change Fin 3 at a
    change Fin 3 at b
    fin_cases a <;> fin_cases b <;> first | exact absurd rfl ha | exact absurd rfl hb | congr 2
  · refine ⟨?_, ![![1, 1 / 2, 1 / 2], ![1 / 2, 1, 0], ![1 / 2, 0, 1]], ⟨fun i j _ => rfl, ?_⟩, ?_⟩
    · intro a b
      change Fin 3 at a
      change Fin 3 at b
      have hself : ∀ t : ℝ, closeTo 1e-12 (.fin t) (.fin t) := fun t => by
        show |t - t| ≤ _
        rw [sub_self, abs_zero]
        positivity
      fin_cases a <;> fin_cases b <;> exact hself _
    · intro i j
      change Fin 3 at i
      change Fin 3 at j
      fin_cases i <;> fin_cases j <;> rfl
    · intro v
      change Fin 3 → ℝ at v
      show _ ≤ ∑ i : Fin 3, ∑ j : Fin 3, _
      simp only [Fin.sum_univ_three]
      have e : ∑ i : Fin (Ell.init 3).dim, v i ^ 2 = v 0 ^ 2 + v 1 ^ 2 + v 2 ^ 2 := Fin.sum_univ_three _
      rw [e]
      show -1e-12 * (v 0 ^ 2 + v 1 ^ 2 + v 2 ^ 2) ≤ (1 : ℝ) * v 0 * v 0 + 1 / 2 * v 0 * v 1 + 1 / 2 * v 0 * v 2 +
        (1 / 2 * v 1 * v 0 + 1 * v 1 * v 1 + 0 * v 1 * v 2) + (1 / 2 * v 2 * v 0 + 0 * v 2 * v 1 + 1 * v 2 * v 2)
      norm_num only
      nlinarith [sq_nonneg (v 0 + v 1 + v 2), sq_nonneg (v 0 + v 2), sq_nonneg (v 0 + v 1),
        sq_nonneg (v 0), sq_nonneg (v 1), sq_nonneg (v 2)]

end Copulae
