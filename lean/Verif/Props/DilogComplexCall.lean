import Verif.Model.DilogComplexCall
import Verif.Props.DilogComplex
import Verif.Props.Threads

/-!
C133 for a complex argument, and C134: `dilog_complex` of arrays works entry by entry and leaves its arguments alone.
-/

namespace Copulae

open Complex

theorem complexOf_fin (a b : ℝ) : complexOf (.fin a, .fin b) = (.fin a, .fin b) := by
  simp [complexOf, Fl.fin_mul_fin, Fl.fin_add_fin, Fl.fin_sub_fin]

/-- C133 for a complex argument, the part that holds: unless `z` is less than `10 DBL_EPSILON` above the cut,
`dilog_complex(z)` is within 2e-12 (and 1e-20 times the logarithm of the modulus) of the dilogarithm of `z`. Missing,
because violated: the points just above the cut (`dilogComplexOf_above_cut_violation`). -/
theorem dilogComplexOf_partial {z : ℂ} (hz : z.re < 1 ∨ z.im ≤ 0 ∨ 10 * cEPS ≤ z.im) :
    Spec.CNear (dilogComplexOf z) (Spec.li2 z) (2 / 10 ^ 12 + 1 / 10 ^ 20 * |Real.log ‖z‖|) := by
  have h1 : ‖z‖ * Real.cos (arg z) = z.re := norm_mul_cos_arg z
  have h2 : ‖z‖ * Real.sin (arg z) = z.im := norm_mul_sin_arg z
  obtain ⟨a, b, e, h⟩ := dilogComplex_partial (r := ‖z‖) (θ := arg z) (norm_nonneg z)
    ((abs_arg_le_pi z).trans_lt (by linarith [Real.pi_pos])) (by rw [h1, h2]; exact hz)
  rw [norm_mul_exp_arg_mul_I] at h
  exact ⟨a, b, by rw [dilogComplexOf, e, complexOf_fin], h⟩

/-- The hypotheses hold on the cut itself, where the value is that of the side below. -/
example : Spec.CNear (dilogComplexOf 3) (Spec.li2 3) (3 / 10 ^ 12) := by
  obtain ⟨a, b, e, h⟩ := dilogComplexOf_partial (z := 3) (Or.inr (Or.inl (by simp)))
  refine ⟨a, b, e, h.trans ?_⟩
  have : |Real.log ‖(3 : ℂ)‖| ≤ 2 := by
    rw [norm_ofNat, abs_of_pos (Real.log_pos (by norm_num))]
    linarith [Real.log_le_sub_one_of_pos (by norm_num : (0 : ℝ) < 3)]
  norm_num at this ⊢
  linarith

/-- C133, violation: just above the cut the imaginary part is negative instead of positive. -/
theorem dilogComplexOf_above_cut_violation {z : ℂ} (h1 : 1 < z.re) (h2 : 0 < z.im) (h3 : z.im < 10 * cEPS) :
    0 < (Spec.li2 z).im ∧ (dilogComplexOf z).2 = .fin (-cPI * Real.log z.re) ∧ -cPI * Real.log z.re < 0 := by
  have e1 : ‖z‖ * Real.cos (arg z) = z.re := norm_mul_cos_arg z
  have e2 : ‖z‖ * Real.sin (arg z) = z.im := norm_mul_sin_arg z
  obtain ⟨a, b, c⟩ := dilogComplex_above_cut_violation (r := ‖z‖) (θ := arg z) (by rw [e1]; exact h1)
    (by rw [e2]; exact h2) (by rw [e2]; exact h3)
  rw [norm_mul_exp_arg_mul_I] at a
  rw [e1] at b c
  refine ⟨a, ?_, c⟩
  unfold dilogComplexOf complexOf
  simp only [b]
  simp [Fl.fin_mul_fin, Fl.fin_add_fin]

/-- The hypotheses hold at `2 + 1e-16 i`. -/
example : (dilogComplexOf ⟨2, 1 / 10 ^ 16⟩).2 = .fin (-cPI * Real.log 2) :=
  (dilogComplexOf_above_cut_violation (z := ⟨2, 1 / 10 ^ 16⟩) (by norm_num) (by norm_num)
    (by unfold cEPS; norm_num)).2.1

/-- The ways the loop over two arrays can run. -/
inductive LoopRunC (f : Fl → Fl → Fl × Fl) {n : ℕ} (x : Fin n → Fl × Fl) : (Fin n → Fl × Fl) → Prop
  | serial (p : Fl × (Fl × Fl)) : LoopRunC f x (mapcDblS f p x)
  | parallel {T : ℕ} {work : Fin T → List (Fin n)} (hw : IsPartition work) (priv : Fin T → Fl × (Fl × Fl))
      (sched : List (Fin T)) (hd : ((PRun.start x work priv).run (mapcBody f) sched).Done) :
      LoopRunC f x ((PRun.start x work priv).run (mapcBody f) sched).mem

theorem LoopRunC.eq {f : Fl → Fl → Fl × Fl} {n : ℕ} {x y : Fin n → Fl × Fl} (h : LoopRunC f x y) :
    y = fun i => f (x i).1 (x i).2 := by
  cases h with
  | serial p =>
    unfold mapcDblS serialLoop
    rw [serialLoop_aux (mapcBody_overwrites f) _ (List.nodup_finRange n)]
    simp only [List.mem_finRange, if_true]
  | parallel hw priv sched hd =>
    have := mapc_dbl_p_eq_s f x hw priv (.fin 0, .fin 0, .fin 0) sched hd
    rw [this.1, this.2]

/-- The ways the loop can run when both arguments are the same memory. -/
inductive LoopRunSame (f : Fl → Fl → Fl × Fl) {n : ℕ} (x : Fin n → Fl) : (Fin n → Fl) → Prop
  | serial (p : Fl × (Fl × Fl)) : LoopRunSame f x (mapcSameS f p x)
  | parallel {T : ℕ} {work : Fin T → List (Fin n)} (hw : IsPartition work) (priv : Fin T → Fl × (Fl × Fl))
      (sched : List (Fin T)) (hd : ((PRun.start x work priv).run (mapcSameBody f) sched).Done) :
      LoopRunSame f x ((PRun.start x work priv).run (mapcSameBody f) sched).mem

theorem mapcSameBody_overwrites {A : Type*} (f : A → A → A × A) :
    Overwrites (mapcSameBody f) fun x => (f x x).2 := fun _ _ => rfl

theorem LoopRunSame.eq {f : Fl → Fl → Fl × Fl} {n : ℕ} {x y : Fin n → Fl} (h : LoopRunSame f x y) :
    y = fun i => (f (x i) (x i)).2 := by
  cases h with
  | serial p =>
    unfold mapcSameS serialLoop
    rw [serialLoop_aux (mapcSameBody_overwrites f) _ (List.nodup_finRange n)]
    simp only [List.mem_finRange, if_true]
  | parallel hw priv sched hd =>
    have := prange_eq_serial (mapcSameBody_overwrites f) x hw priv (.fin 0, .fin 0, .fin 0) sched hd
    rw [this.1, this.2]

/-- The loops without threads are such runs. -/
example (f : Fl → Fl → Fl × Fl) (p : Fl × (Fl × Fl)) :
    (∀ {n} (x : Fin n → Fl × Fl), LoopRunC f x (mapcDblS f p x)) ∧
      ∀ {n} (x : Fin n → Fl), LoopRunSame f x (mapcSameS f p x) :=
  ⟨fun _ => .serial p, fun _ => .serial p⟩

/-- What a call with two separate arrays does: arrays of different shapes are refused; two arguments with one element
give a scalar; otherwise the array returned has the shape of the arguments and holds the value of each pair; and each
contiguous array of 64-bit floats passed in holds the real parts (`r`) or the imaginary parts (`theta`) afterwards. -/
theorem dilogComplexCall_spec (f : Fl → Fl → Fl × Fl) {loop : ∀ {n}, (Fin n → Fl × Fl) → Fin n → Fl × Fl}
    (hl : ∀ {n} (x : Fin n → Fl × Fl), LoopRunC f x (loop x)) (r theta : SpecArg)
    (hr : r.data.length = r.shape.prod) (ht : theta.data.length = theta.shape.prod) :
    (r.shape ≠ theta.shape → dilogComplexCall f loop r theta = .error .assertionError) ∧
      (r.shape = theta.shape →
        (∀ a b, r.data = [a] → theta.data = [b] →
          dilogComplexCall f loop r theta = .ok (.scalar (complexOf (f a b)), r.data, theta.data)) ∧
        (r.data.length ≠ 1 → dilogComplexCall f loop r theta =
          .ok (.array r.shape (List.zipWith (fun a b => complexOf (f a b)) r.data theta.data),
            (if r.isFloat64 = true ∧ r.contiguous = true then
              List.zipWith (fun a b => (f a b).1) r.data theta.data else r.data),
            (if theta.isFloat64 = true ∧ theta.contiguous = true then
              List.zipWith (fun a b => (f a b).2) r.data theta.data else theta.data)))) := by
  obtain ⟨sr, dr, fr, cr⟩ := r
  obtain ⟨st, dt, ft, ct⟩ := theta
  simp only at hr ht ⊢
  have key : ∀ x : List (Fl × Fl), List.ofFn (loop fun i : Fin x.length => x[i]) = x.map fun p => f p.1 p.2 := by
    intro l
    rw [(hl _).eq]
    exact List.ext_getElem (by simp) fun i h1 h2 => by simp
  constructor
  · intro h
    unfold dilogComplexCall
    simp only
    rw [if_pos h]
  · rintro rfl
    constructor
    · rintro a b rfl rfl
      simp [dilogComplexCall]
    · intro h
      have hlen : dr.length = dt.length := hr.trans ht.symm
      have e : dilogComplexCall f loop ⟨sr, dr, fr, cr⟩ ⟨sr, dt, ft, ct⟩ =
          .ok (.array sr (((dr.zip dt).map fun p => f p.1 p.2).map complexOf),
            if fr && cr then ((dr.zip dt).map fun p => f p.1 p.2).map Prod.fst else dr,
            if ft && ct then ((dr.zip dt).map fun p => f p.1 p.2).map Prod.snd else dt) := by
        unfold dilogComplexCall
        simp only [ne_eq, not_true_eq_false, if_false]
        split
        · exact absurd rfl h
        · simp only [key]
      rw [e]
      simp only [List.zip, List.map_zipWith, Bool.and_eq_true]

example (f : Fl → Fl → Fl × Fl) (p : Fl × (Fl × Fl)) := dilogComplexCall_spec f (loop := mapcDblS f p) (fun _ => .serial p)
  ⟨[2, 1], [.fin 1, .fin 2], true, true⟩ ⟨[2], [.fin 0, .nan], false, true⟩ rfl rfl

/-- C134, the part that holds: with two arrays that share no memory, of the same shape with a number of elements other
than one, each element of the result is near the dilogarithm of `r exp(i theta)` of its elements, for the moduli and
angles for which the elements are. Missing, because violated: the arguments are overwritten
(`dilogComplexCall_overwrites_violation`), and an array passed twice (`dilogComplexSame_violation`). -/
theorem dilogComplexCall_partial {f : Fl → Fl → Fl × Fl} (hf : ∀ r θ : ℝ, f (.fin r) (.fin θ) = dilogComplexK r θ)
    {loop : ∀ {n}, (Fin n → Fl × Fl) → Fin n → Fl × Fl} (hl : ∀ {n} (x : Fin n → Fl × Fl), LoopRunC f x (loop x))
    {r theta : SpecArg} {rs ts : List ℝ} (hr : r.data = rs.map .fin) (ht : theta.data = ts.map .fin)
    (hlr : rs.length = r.shape.prod) (hs : r.shape = theta.shape) (hlt : ts.length = theta.shape.prod)
    (h1 : rs.length ≠ 1)
    (hdom : ∀ p ∈ rs.zip ts, 0 ≤ p.1 ∧ |p.2| < 2 * Real.pi ∧
      (p.1 * Real.cos p.2 < 1 ∨ p.1 * Real.sin p.2 ≤ 0 ∨ 10 * cEPS ≤ p.1 * Real.sin p.2)) :
    ∃ out after, dilogComplexCall f loop r theta = .ok (.array r.shape out, after) ∧
      out.length = rs.length ∧ ∀ i (h : i < rs.length) (h' : i < ts.length) (h'' : i < out.length),
        Spec.CNear out[i] (Spec.li2 (rs[i] * exp (ts[i] * I))) (2 / 10 ^ 12 + 1 / 10 ^ 20 * |Real.log rs[i]|) := by
  have := ((dilogComplexCall_spec f hl r theta (by rw [hr, List.length_map, hlr])
    (by rw [ht, List.length_map, hlt])).2 hs).2 (by rw [hr, List.length_map]; exact h1)
  refine ⟨_, _, this, ?_, ?_⟩
  · rw [List.length_zipWith, hr, ht, List.length_map, List.length_map, hlr, hlt, hs, min_self]
  · intro i h h' h''
    have hmem : (rs[i], ts[i]) ∈ rs.zip ts := by
      rw [List.mem_iff_getElem]
      exact ⟨i, by simp [h, h'], by simp⟩
    obtain ⟨p1, p2, p3⟩ := hdom _ hmem
    obtain ⟨a, b, e, hab⟩ := dilogComplex_partial p1 p2 p3
    refine ⟨a, b, ?_, hab⟩
    simp only [List.getElem_zipWith, hr, ht, List.getElem_map, hf, e, complexOf_fin]

/-- A function that is `dilogComplexK` on numbers. -/
noncomputable def dilogComplexFl : Fl → Fl → Fl × Fl
  | .fin r, .fin θ => dilogComplexK r θ
  | _, _ => (.nan, .nan)

example (p : Fl × (Fl × Fl)) := dilogComplexCall_partial (f := dilogComplexFl) (fun _ _ => rfl)
  (loop := mapcDblS dilogComplexFl p) (fun _ => .serial p) (r := ⟨[2], [.fin (1 / 2), .fin 2], true, true⟩)
  (theta := ⟨[2], [.fin 1, .fin (-1)], false, true⟩) (rs := [1 / 2, 2]) (ts := [1, -1]) rfl rfl rfl rfl rfl (by norm_num) (by
    have := Real.pi_gt_three
    simp only [List.zip_cons_cons, List.zip_nil_left, List.mem_cons, List.not_mem_nil, or_false]
    rintro q (rfl | rfl)
    · exact ⟨by norm_num, by rw [abs_one]; linarith, .inl (by linarith [Real.cos_le_one 1])⟩
    · refine ⟨by norm_num, by rw [abs_neg, abs_one]; linarith, .inr (.inl ?_)⟩
      rw [Real.sin_neg]
      have := Real.sin_pos_of_pos_of_lt_pi one_pos (by linarith)
      linarith)

/-- C134, violation: the caller's contiguous arrays of 64-bit floats hold the two parts of the result afterwards. -/
theorem dilogComplexCall_overwrites_violation {f : Fl → Fl → Fl × Fl} (hf : ∀ r θ : ℝ, f (.fin r) (.fin θ) = dilogComplexK r θ)
    {loop : ∀ {n}, (Fin n → Fl × Fl) → Fin n → Fl × Fl} (hl : ∀ {n} (x : Fin n → Fl × Fl), LoopRunC f x (loop x)) :
    ∃ out ra ta, dilogComplexCall f loop ⟨[2], [.fin (1 / 2), .fin 0], true, true⟩ ⟨[2], [.fin Real.pi, .fin 0], true, true⟩ =
      .ok (out, ra, ta) ∧ ta = [.fin 0, .fin 0] := by
  have := ((dilogComplexCall_spec f hl ⟨[2], [.fin (1 / 2), .fin 0], true, true⟩ ⟨[2], [.fin Real.pi, .fin 0], true, true⟩
    rfl rfl).2 rfl).2 (by simp)
  refine ⟨_, _, _, this, ?_⟩
  have he : 0 < cEPS := by unfold cEPS; norm_num
  simp [hf, dilogComplexK, he]
  norm_num

example (p : Fl × (Fl × Fl)) := dilogComplexCall_overwrites_violation (f := dilogComplexFl) (fun _ _ => rfl)
  (loop := mapcDblS dilogComplexFl p) (fun _ => .serial p)

/-- C134, violation: an array of 64-bit floats passed as both arguments gives numbers whose real part is their
imaginary part. -/
theorem dilogComplexSame_violation (f : Fl → Fl → Fl × Fl) {loop : ∀ {n}, (Fin n → Fl × Fl) → Fin n → Fl × Fl}
    {loopSame : ∀ {n}, (Fin n → Fl) → Fin n → Fl} (hl : ∀ {n} (x : Fin n → Fl), LoopRunSame f x (loopSame x))
    {a : SpecArg} (h1 : a.isFloat64 = true) (h2 : a.contiguous = true) (h3 : a.data.length ≠ 1) :
    (dilogComplexSame f loop loopSame a).1 =
      .array a.shape (a.data.map fun v => complexOf ((f v v).2, (f v v).2)) := by
  obtain ⟨sh, d, fl, ct⟩ := a
  simp only at h1 h2 h3 ⊢
  subst h1 h2
  have key : ∀ l : List Fl, List.ofFn (loopSame fun i : Fin l.length => l[i]) = l.map fun v => (f v v).2 := by
    intro l
    rw [(hl _).eq]
    exact List.ext_getElem (by simp) fun i h1 h2 => by simp
  unfold dilogComplexSame
  simp only [Bool.and_self, if_true]
  split
  · exact absurd rfl h3
  · simp only [key, List.map_map, Function.comp_def]

example (f : Fl → Fl → Fl × Fl) (p : Fl × (Fl × Fl)) := dilogComplexSame_violation f (loop := mapcDblS f p)
  (loopSame := mapcSameS f p) (fun _ => .serial p) (a := ⟨[2], [.fin (1 / 2), .fin (1 / 3)], true, true⟩) rfl rfl (by norm_num)

/-- The hypotheses hold for `a = np.array([0.5, 0.5])`; two copies of the array (a list, say) give the values. -/
theorem dilogComplexSame_example {f : Fl → Fl → Fl × Fl} {loop : ∀ {n}, (Fin n → Fl × Fl) → Fin n → Fl × Fl}
    {loopSame : ∀ {n}, (Fin n → Fl) → Fin n → Fl} (hc : ∀ {n} (x : Fin n → Fl × Fl), LoopRunC f x (loop x))
    (hl : ∀ {n} (x : Fin n → Fl), LoopRunSame f x (loopSame x)) (v : Fl) :
    (dilogComplexSame f loop loopSame ⟨[2], [v, v], true, true⟩).1 =
        .array [2] [complexOf ((f v v).2, (f v v).2), complexOf ((f v v).2, (f v v).2)] ∧
      (dilogComplexSame f loop loopSame ⟨[2], [v, v], false, true⟩).1 =
        .array [2] [complexOf (f v v), complexOf (f v v)] := by
  constructor
  · rw [dilogComplexSame_violation f hl rfl rfl (by simp)]
    rfl
  · simp only [dilogComplexSame, Bool.false_and, Bool.false_eq_true, if_false, (hc _).eq]
    simp

example (f : Fl → Fl → Fl × Fl) (p : Fl × (Fl × Fl)) := dilogComplexSame_example (loop := mapcDblS f p)
  (loopSame := mapcSameS f p) (fun _ => .serial p) (fun _ => .serial p) (.fin (1 / 2))

end Copulae
