import Verif.Lemmas.GumbelCoef

/-!
Properties C33 and C34: coefficients of the Gumbel polynomial
(`copulae/archimedean/gumbel.py`, `auxiliary.py`) and `sign_ff`.
-/

namespace Copulae

open Finset

/-! ### C34 -/

/-- Value of `sign_ff` for one pair, as documented. -/
noncomputable def signSpec (α : ℝ) (j d : ℕ) : Fl :=
  .fin (Real.sign (genBinom (α * j) d * (-1) ^ (d + j)))

theorem signFF_one_elem {j d : ℕ} (hjd : j ≤ d) :
    (if (j : ℤ) = d then Fl.fin 1 else .fin 0) = signSpec 1 j d := by
  unfold signSpec
  rw [one_mul, genBinom_nat]
  by_cases h : j = d
  · subst h
    rw [if_pos rfl, ← two_mul, pow_mul]
    simp [Real.sign_of_pos]
  · rw [if_neg (by exact_mod_cast h), Nat.choose_eq_zero_of_lt (by omega)]
    simp

/-- **C34** (partial: array arguments only, see `signFF_scalar_fails`) `sign_ff(alpha, j, d)` is the
sign of `C(alpha j, d) (-1)^(d-j)`, for every `alpha` in (0, 1] and arrays of equal length with
`1 ≤ j ≤ d` elementwise. -/
theorem signFF_arrays_partial {α : ℝ} (h0 : 0 < α) (h1 : α ≤ 1) (j d : List ℕ)
    (hlen : j.length = d.length) (h : ∀ p ∈ List.zip j d, 1 ≤ p.1 ∧ p.1 ≤ p.2) :
    ∃ r, signFF α (.arr (j.map fun (n : ℕ) => (n : ℤ))) (.arr (d.map fun (n : ℕ) => (n : ℤ))) = .ok r ∧
      r.toList = List.zipWith (signSpec α) j d := by
  unfold signFF
  rw [if_neg (by push Not; exact ⟨h0, h1⟩), if_neg, if_neg]
  rotate_left
  · push Not
    intro v hv
    simp only [IntArg.toList, List.mem_map] at hv
    obtain ⟨n, -, rfl⟩ := hv; omega
  · push Not
    intro v hv
    simp only [IntArg.toList, List.mem_map] at hv
    obtain ⟨n, -, rfl⟩ := hv; omega
  simp only [List.length_map, hlen, gt_iff_lt, lt_irrefl, if_false]
  have hres : ∀ l : List Fl, (squeezeRes l).toList = l := by
    intro l
    match l with
    | [] => rfl
    | [v] => rfl
    | _ :: _ :: _ => rfl
  have hzip : ∀ f : ℤ → ℤ → Fl, (∀ p ∈ List.zip j d, f p.1 p.2 = signSpec α p.1 p.2) →
      List.zipWith f (j.map fun (n : ℕ) => (n : ℤ)) (d.map fun (n : ℕ) => (n : ℤ))
        = List.zipWith (signSpec α) j d := by
    intro f hf
    rw [List.zipWith_map]
    apply List.ext_getElem
    · simp
    · intro i h1 h2
      rw [List.getElem_zipWith, List.getElem_zipWith]
      refine hf (j[i]'(by simp at h2; omega), d[i]'(by simp at h2; omega)) ?_
      rw [← List.getElem_zip (h := by simpa using h2)]
      exact List.getElem_mem _
  by_cases hα : α = 1
  · rw [if_pos hα, if_neg]
    · refine ⟨_, rfl, ?_⟩
      rw [hres, hzip]
      intro p hp
      rw [hα]
      exact signFF_one_elem (h p hp).2
    · rintro ⟨p, hp, hgt⟩
      rw [List.zip_map, List.mem_map] at hp
      obtain ⟨q, hq, rfl⟩ := hp
      have := (h q hq).2
      simp only [Prod.map] at hgt
      omega
  · rw [if_neg hα]
    refine ⟨_, rfl, ?_⟩
    rw [hres, hzip]
    intro p hp
    exact signFFElem_eq h0 (lt_of_le_of_ne h1 hα) (h p hp).1 (h p hp).2

/-- **C34** The same with an array `j` and a single number `d` (the call made for the 'pois'
method of the Gumbel polynomial). -/
theorem signFF_scalar_d {α : ℝ} (h0 : 0 < α) (h1 : α ≤ 1) (j : List ℕ) (d : ℕ)
    (h : ∀ n ∈ j, 1 ≤ n ∧ n ≤ d) :
    ∃ r, signFF α (.arr (j.map fun (n : ℕ) => (n : ℤ))) (.scalar d) = .ok r ∧
      r.toList = j.map fun n => signSpec α n d := by
  obtain ⟨r, hr, hl⟩ := signFF_arrays_partial h0 h1 j (List.replicate j.length d) (by simp) (by
    intro p hp
    obtain ⟨a, b⟩ := p
    have h1 := List.of_mem_zip hp
    rw [List.mem_replicate] at h1
    obtain ⟨h1, -, rfl⟩ := h1
    exact h a h1)
  refine ⟨r, ?_, ?_⟩
  · rw [← hr]
    unfold signFF
    simp only [List.length_map, List.map_replicate, List.length_replicate, gt_iff_lt, lt_irrefl,
      if_false, IntArg.toList]
    have e : (∀ v ∈ [(d : ℤ)], 0 ≤ v) ↔ True := by simp
    have e' : (∀ v ∈ List.replicate j.length (d : ℤ), 0 ≤ v) ↔ True := by
      simp only [iff_true]
      intro v hv
      rw [List.mem_replicate] at hv
      rw [hv.2]; omega
    rw [if_neg (by rw [e]; simp : ¬ ¬ (∀ v ∈ [(d : ℤ)], 0 ≤ v)),
      if_neg (by rw [e']; simp : ¬ ¬ (∀ v ∈ List.replicate j.length (d : ℤ), 0 ≤ v))]
  · rw [hl]
    clear hr hl h
    induction j with
    | nil => rfl
    | cons a l ih => rw [List.length_cons, List.replicate_succ, List.zipWith_cons_cons, ih]; rfl

example := signFF_scalar_d (α := 1 / 2) (by norm_num) (by norm_num) [1, 2, 4] 4 (by simp)

/-- The missing case of **C34**: with two integer scalars, as the documentation asks for, the
function never returns. -/
theorem signFF_scalar_fails (α : ℝ) (j d : ℤ) :
    ∃ e, signFF α (.scalar j) (.scalar d) = .error e := by
  unfold signFF
  by_cases h1 : 0 < α ∧ α ≤ 1
  · rw [if_neg (not_not.mpr h1)]
    split_ifs
    · exact ⟨_, rfl⟩
    · exact ⟨_, rfl⟩
    · exact ⟨_, rfl⟩
    · exact ⟨_, rfl⟩
  · rw [if_pos h1]
    exact ⟨_, rfl⟩

example : ∃ r, signFF (1 / 2) (.arr [1, 2, 3]) (.arr [3, 3, 3]) = .ok r ∧
    r.toList = List.zipWith (signSpec (1 / 2)) [1, 2, 3] [3, 3, 3] := by
  simpa using signFF_arrays_partial (α := 1 / 2) (by norm_num) (by norm_num) [1, 2, 3] [3, 3, 3] rfl
    (by decide)

/-! ### C33 -/

theorem cumProd_desc (d n acc i : ℕ) (hacc : acc = d.descFactorial i) :
    cumProd acc ((List.range n).map fun k => d - (i + k))
      = (List.range n).map fun k => d.descFactorial (i + k + 1) := by
  induction n generalizing acc i with
  | zero => rfl
  | succ n ih =>
    rw [List.range_succ_eq_map, List.map_cons, List.map_map, cumProd, List.map_cons, List.map_map]
    have h1 : acc * (d - (i + 0)) = d.descFactorial (i + 1) := by
      rw [hacc, Nat.descFactorial_succ, Nat.add_zero, mul_comm]
    have h2 := ih (acc * (d - (i + 0))) (i + 1) h1
    rw [Nat.add_zero] at h1 h2 ⊢
    rw [h1] at h2 ⊢
    congr 1
    have e : ((fun k => d - (i + k)) ∘ Nat.succ) = fun k => d - (i + 1 + k) := by
      funext k; simp only [Function.comp]; congr 1; omega
    rw [e, h2]
    apply List.map_congr_left
    intro k _
    simp only [Function.comp]
    congr 1; omega

theorem gumbelCk_eq {d : ℕ} (hd : 1 ≤ d) :
    gumbelCk d = (List.range d).map fun i => d.descFactorial (d - (i + 1)) := by
  unfold gumbelCk
  have h := cumProd_desc d (d - 1) 1 0 (by simp)
  simp only [Nat.zero_add] at h
  rw [h]
  have e : (1 :: (List.range (d - 1)).map fun k => d.descFactorial (k + 1))
      = (List.range d).map fun k => d.descFactorial k := by
    obtain ⟨m, rfl⟩ : ∃ m, d = m + 1 := ⟨d - 1, by omega⟩
    rw [Nat.add_sub_cancel, List.range_succ_eq_map, List.map_cons, List.map_map]
    rfl
  rw [e]
  apply List.ext_getElem
  · simp
  · intro i h1 h2
    simp only [List.getElem_reverse, List.getElem_map, List.getElem_range, List.length_map,
      List.length_range]
    congr 1; omega

theorem ck_cast {d k : ℕ} (h : k ≤ d) :
    ((d.descFactorial (d - k) : ℕ) : ℝ) = (d.factorial : ℝ) / (k.factorial : ℝ) := by
  have := Nat.factorial_mul_descFactorial (n := d) (k := d - k) (by omega)
  rw [show d - (d - k) = k by omega] at this
  rw [eq_div_iff (by positivity), mul_comm]
  exact_mod_cast this

theorem zipWith_map_range {β γ δ : Type*} (f : β → γ → δ) (g : ℕ → β) (h : ℕ → γ) (n : ℕ) :
    List.zipWith f ((List.range n).map g) ((List.range n).map h)
      = (List.range n).map fun i => f (g i) (h i) := by
  rw [List.zipWith_map, List.zipWith_self]

/-- `dsum_sibuya(d, [1..d], alpha, method, log)`. -/
theorem dsumSibuya_row {d : ℕ} (hd : 1 ≤ d) {α : ℝ} (h0 : 0 < α) (h1 : α ≤ 1) (m : SibMethod)
    (log : Bool) (hm : m = .log → α = 1 ∨ 2 ≤ d) (hlog : log = true → α ≠ 1) :
    dsumSibuya [(d : ℤ)] ((List.range d).map fun (i : ℕ) => (i : ℤ) + 1) α m log
      = .ok ((List.range d).map fun i => coefVal log (sibuyaVal d α (i + 1))) := by
  unfold dsumSibuya
  rw [if_neg, if_neg (by push Not; exact ⟨h0, h1⟩)]
  swap
  · push Not
    intro v hv
    rw [List.mem_map] at hv
    obtain ⟨i, -, rfl⟩ := hv; omega
  simp only [List.length_map, List.length_range, List.length_singleton]
  have hx : (if 1 < d then [(d : ℤ)].flatMap (List.replicate (max 1 d)) else [(d : ℤ)])
      = (List.range d).map fun _ => (d : ℤ) := by
    split_ifs with h
    · rw [List.flatMap_singleton, max_eq_right hd]
      apply List.ext_getElem <;> simp
    · obtain rfl : d = 1 := by omega
      rfl
  have hn : (if d < 1 then ((List.range d).map fun (i : ℕ) => (i : ℤ) + 1).flatMap
      (List.replicate (max 1 d)) else (List.range d).map fun (i : ℕ) => (i : ℤ) + 1)
      = (List.range d).map fun (i : ℕ) => (i : ℤ) + 1 := if_neg (by omega)
  rw [hx, hn]
  have hp : (List.zip ((List.range d).map fun _ => (d : ℤ))
      ((List.range d).map fun (i : ℕ) => (i : ℤ) + 1)).take (max 1 d)
      = (List.range d).map fun (i : ℕ) => ((d : ℤ), (i : ℤ) + 1) := by
    rw [List.take_of_length_le (by simp)]
    exact zipWith_map_range _ _ _ _
  rw [hp]
  by_cases hα : α = 1
  · rw [if_pos hα, if_pos (by simp), zipWith_map_range]
    cases log with
    | true => exact absurd hα (hlog rfl)
    | false =>
      congr 1
      apply List.map_congr_left
      intro i hi
      rw [List.mem_range] at hi
      rw [coefVal, sibuyaVal, hα, gumbelA_one]
      simp only [Bool.false_eq_true, if_false]
      by_cases h : i + 1 = d
      · rw [if_pos (by omega), if_pos h, h, div_self (by positivity)]; simp
      · rw [if_neg (by omega), if_neg h]; simp
  · rw [if_neg hα]
    have h1' : α < 1 := lt_of_le_of_ne h1 hα
    have hpos : ∀ i < d, 0 < sibuyaVal d α (i + 1) := by
      intro i hi
      have := gumbelA_pos h0 h1' (d := d) (k := i + 1) (by omega) (by omega)
      unfold sibuyaVal
      positivity
    cases m with
    | direct =>
      simp only [pure, Except.pure, List.map_map]
      have e : ∀ i ∈ List.range d, ((fun p : ℤ × ℤ => sibuyaDirect α p.1 p.2) ∘
          fun (i : ℕ) => ((d : ℤ), (i : ℤ) + 1)) i = .fin (sibuyaVal d α (i + 1)) := by
        intro i hi
        rw [List.mem_range] at hi
        have := sibuyaDirect_eq h0 hd (k := i + 1) (by omega)
        push_cast at this
        exact this
      rw [List.map_congr_left e]
      cases log with
      | true =>
        simp only [if_true]
        congr 1
        apply List.map_congr_left
        intro i hi
        exact congrArg Fl.log (e i hi)
      | false => rfl
    | diff =>
      simp only [pure, Except.pure, bind, Except.bind]
      rw [mapM_ok _ (fun p : ℤ × ℤ => Fl.fin (sibuyaVal d α p.2.toNat))]
      · simp only [List.map_map]
        cases log with
        | true => rfl
        | false => rfl
      · intro p hp
        rw [List.mem_map] at hp
        obtain ⟨i, -, rfl⟩ := hp
        have := sibuyaDiff_eq (k := i + 1) h0 hd
        push_cast at this
        exact this
    | log =>
      have hd2 : 2 ≤ d := (hm rfl).resolve_left hα
      simp only [pure, Except.pure, bind, Except.bind]
      have hmax : intMax ((List.range d).map fun (i : ℕ) => (i : ℤ) + 1) = .ok (d : ℤ) := by
        have key : ∀ n : ℕ, ∀ s : ℤ, s = 1 →
            ((List.range n).map fun (i : ℕ) => (i : ℤ) + 1 + 1).foldl max s = n + 1 := by
          intro n
          induction n with
          | zero => intro s hs; simp [hs]
          | succ n ih =>
            intro s hs
            rw [List.range_succ, List.map_append, List.foldl_append, ih s hs]
            simp only [List.map_cons, List.map_nil, List.foldl_cons, List.foldl_nil]
            push_cast
            omega
        obtain ⟨n, rfl⟩ : ∃ n, d = n + 1 := ⟨d - 1, by omega⟩
        rw [List.range_succ_eq_map, List.map_cons, List.map_map]
        rw [intMax]
        congr 1
        have := key n 1 rfl
        push_cast
        rw [← this]
        simp only [Function.comp_def, Nat.succ_eq_add_one, Nat.cast_add, Nat.cast_one]
      rw [hmax]
      simp only [Int.toNat_natCast]
      have hsign : signFF α (.arr ((List.range d).map fun (i : ℕ) => (i : ℤ) + 1))
          (.arr ((List.range d).map fun _ => (d : ℤ)))
          = .ok (.arr ((List.range d).map fun (j : ℕ) => signFFElem α ((j : ℤ) + 1) d)) := by
        unfold signFF
        rw [if_neg (by push Not; exact ⟨h0, h1⟩), if_neg, if_neg]
        rotate_left
        · push Not
          intro v hv
          simp only [IntArg.toList, List.mem_map] at hv
          obtain ⟨n, -, rfl⟩ := hv; omega
        · push Not
          intro v hv
          simp only [IntArg.toList, List.mem_map] at hv
          obtain ⟨n, -, rfl⟩ := hv; omega
        simp only [List.length_map, gt_iff_lt, lt_irrefl, if_false, if_neg hα]
        rw [zipWith_map_range]
        obtain ⟨n, rfl⟩ : ∃ n, d = n + 1 + 1 := ⟨d - 2, by omega⟩
        rw [List.range_succ_eq_map, List.range_succ_eq_map]
        rfl
      rw [hsign]
      simp only
      rw [mapM_ok _ (fun p : ℤ × ℤ => Fl.log (.fin (sibuyaVal d α p.2.toNat)))]
      · simp only [List.map_map]
        cases log with
        | true => rfl
        | false =>
          simp only [Bool.false_eq_true, if_false]
          congr 1
          apply List.map_congr_left
          intro i hi
          rw [List.mem_range] at hi
          have e : ((i : ℤ) + 1).toNat = i + 1 := by omega
          simp only [Function.comp, e]
          rw [Fl.log_pos (hpos i hi), Fl.exp_fin, Real.exp_log (hpos i hi)]
          rfl
      · intro p hp
        rw [List.mem_map] at hp
        obtain ⟨i, hi, rfl⟩ := hp
        rw [List.mem_range] at hi
        have := sibuyaLog_eq (k := i + 1) h0 h1' hd (by omega) (by omega)
        push_cast at this
        exact this

/-- **C33** (partial: the two exceptional cases are `gumbelCoef_log_dim_one` and
`gumbelCoef_log_alpha_one`) Every method of `gumbel_coef` returns the same `d` coefficients
`a_k = (-1)^(d-k) Σ_j alpha^j s(d,j) S(j,k)`, `k = 1, ..., d`, resp. their logarithms. -/
theorem gumbelCoef_methods_partial {d : ℕ} (hd : 1 ≤ d) {α : ℝ} (h0 : 0 < α) (h1 : α ≤ 1)
    (m : CoefMethod) (log : Bool) (hm : m = .log → α = 1 ∨ 2 ≤ d)
    (hlog : log = true → m = .log ∨ m = .dsDirect ∨ m = .diff → α ≠ 1) :
    gumbelCoef d α m log = .ok ((List.range d).map fun i =>
      if log then Fl.log (.fin (gumbelA d α (i + 1))) else .fin (gumbelA d α (i + 1))) := by
  have hsib : ∀ sm : SibMethod, (sm = .log → α = 1 ∨ 2 ≤ d) → (log = true → α ≠ 1) →
      (dsumSibuya [(d : ℤ)] ((List.range d).map fun (i : ℕ) => (i : ℤ) + 1) α sm log >>= fun p =>
        (pure (if log then List.zipWith (fun p c => p + Fl.log c) p
            ((gumbelCk d).map fun (c : ℕ) => Fl.fin (c : ℝ))
          else List.zipWith (fun p c => p * c) p
            ((gumbelCk d).map fun (c : ℕ) => Fl.fin (c : ℝ))) : Except PyErr (List Fl)))
      = .ok ((List.range d).map fun i => coefVal log (gumbelA d α (i + 1))) := by
    intro sm h2 h3
    rw [dsumSibuya_row hd h0 h1 sm log h2 h3, gumbelCk_eq hd, List.map_map]
    simp only [bind, Except.bind, pure, Except.pure]
    rw [zipWith_map_range, zipWith_map_range]
    have hfac : ∀ i < d, (d.factorial : ℝ) / ((i + 1).factorial : ℝ) * sibuyaVal d α (i + 1)
        = gumbelA d α (i + 1) := by
      intro i _
      unfold sibuyaVal
      have : ((i + 1).factorial : ℝ) ≠ 0 := by positivity
      have : (d.factorial : ℝ) ≠ 0 := by positivity
      field_simp
    have hnn : ∀ i, 0 ≤ sibuyaVal d α (i + 1) := by
      intro i
      have := gumbelA_nonneg h0 h1 d (i + 1)
      unfold sibuyaVal
      positivity
    cases log with
    | true =>
      simp only [if_true]
      congr 1
      apply List.map_congr_left
      intro i hi
      rw [List.mem_range] at hi
      simp only [Function.comp, coefVal, if_true]
      rw [ck_cast (by omega), Fl.add_comm', fl_log_add (by positivity) (hnn i), mul_comm,
        hfac i hi]
    | false =>
      simp only [Bool.false_eq_true, if_false]
      congr 1
      apply List.map_congr_left
      intro i hi
      rw [List.mem_range] at hi
      simp only [Function.comp, coefVal, Bool.false_eq_true, if_false]
      rw [ck_cast (by omega), Fl.fin_mul_fin, mul_comm, hfac i hi]
  unfold gumbelCoef
  rw [if_neg (by push Not; exact ⟨h0, h1⟩), if_neg (by omega)]
  show _ = Except.ok ((List.range d).map fun i => coefVal log (gumbelA d α (i + 1)))
  cases m with
  | sort =>
    simp only
    rw [stirlingFirstAll_eq, stirlingTable]
    apply mapM_ok
    intro i hi
    rw [List.mem_range] at hi
    exact coefSort_eq h0 h1 hi log
  | horner =>
    simp only
    rw [stirlingFirstAll_eq, stirlingTable]
    apply mapM_ok
    intro i hi
    rw [List.mem_range] at hi
    exact coefHorner_eq h0 h1 hi log
  | direct =>
    simp only
    rw [stirlingFirstAll_eq, stirlingTable]
    show Except.ok _ = Except.ok _
    congr 1
    apply List.map_congr_left
    intro i hi
    rw [List.mem_range] at hi
    exact coefDirect_eq h0 h1 hi log
  | log => exact hsib .log (fun _ => hm rfl) (fun h => hlog h (by simp))
  | dsDirect => exact hsib .direct (by simp) (fun h => hlog h (by simp))
  | diff => exact hsib .diff (by simp) (fun h => hlog h (by simp))

example := gumbelCoef_methods_partial (d := 3) (by norm_num) (α := 1) one_pos le_rfl .log false (by simp) (by simp)

/-- **C33** For `d ≥ 2` and `0 < alpha < 1` any two methods agree. -/
theorem gumbelCoef_agree {d : ℕ} (hd : 2 ≤ d) {α : ℝ} (h0 : 0 < α) (h1 : α < 1)
    (m m' : CoefMethod) (log : Bool) : gumbelCoef d α m log = gumbelCoef d α m' log := by
  rw [gumbelCoef_methods_partial (by omega) h0 h1.le m log (fun _ => Or.inr hd) (fun _ _ => h1.ne),
    gumbelCoef_methods_partial (by omega) h0 h1.le m' log (fun _ => Or.inr hd) (fun _ _ => h1.ne)]

example := gumbelCoef_agree (d := 4) (by norm_num) (α := 1 / 3) (by norm_num) (by norm_num) .direct .diff true

/-- **C33** The coefficients are positive for `alpha < 1`, so that their logarithms are finite. -/
theorem gumbelCoef_positive {d : ℕ} (hd : 2 ≤ d) {α : ℝ} (h0 : 0 < α) (h1 : α < 1)
    (m : CoefMethod) : ∃ a : ℕ → ℝ, (∀ i < d, 0 < a i) ∧
      gumbelCoef d α m false = .ok ((List.range d).map fun i => .fin (a i)) ∧
      gumbelCoef d α m true = .ok ((List.range d).map fun i => .fin (Real.log (a i))) := by
  refine ⟨fun i => gumbelA d α (i + 1), fun i hi => gumbelA_pos h0 h1 (by omega) (by omega), ?_, ?_⟩
  · rw [gumbelCoef_methods_partial (by omega) h0 h1.le m false (fun _ => Or.inr hd) (by simp)]
    rfl
  · rw [gumbelCoef_methods_partial (by omega) h0 h1.le m true (fun _ => Or.inr hd)
      (fun _ _ => h1.ne)]
    congr 1
    apply List.map_congr_left
    intro i hi
    rw [List.mem_range] at hi
    rw [if_pos rfl, Fl.log_pos (gumbelA_pos h0 h1 (by omega) (by omega))]

example := gumbelCoef_positive (d := 4) (by norm_num) (α := 1 / 3) (by norm_num) (by norm_num) .dsDirect

/-- First exception to **C33**: in dimension one method 'log' raises `TypeError`, because
`sign_ff` returns a scalar that cannot be indexed. -/
theorem gumbelCoef_log_dim_one {α : ℝ} (h0 : 0 < α) (h1 : α < 1) (log : Bool) :
    gumbelCoef 1 α .log log = .error .typeError := by
  unfold gumbelCoef dsumSibuya signFF
  simp only [List.range_one, List.map_cons, List.map_nil]
  rw [if_neg (by push Not; exact ⟨h0, h1.le⟩), if_neg (by omega)]
  simp [h0, h1.le, h1.ne, IntArg.toList, bind, Except.bind, sibuyaLog, intMax, squeezeRes]

example := gumbelCoef_log_dim_one (α := 1 / 2) (by norm_num) (by norm_num) true

/-- Second exception to **C33**: for `alpha = 1` the Sibuya based methods ignore `log=True` and
return 0/1 instead of the logarithms `-inf`/0 (plus the logarithm of the factor). -/
theorem gumbelCoef_log_alpha_one (m : CoefMethod) (hm : m = .log ∨ m = .dsDirect ∨ m = .diff) :
    gumbelCoef 2 1 m true = .ok [.fin (Real.log 2), .fin 1] ∧
    gumbelCoef 2 1 .direct true = .ok [.ninf, .fin 0] := by
  constructor
  · have h : ∀ sm, dsumSibuya [((2 : ℕ) : ℤ)] ((List.range 2).map fun (i : ℕ) => (i : ℤ) + 1) 1 sm true
        = .ok [.fin 0, .fin 1] := by
      intro sm
      unfold dsumSibuya
      simp [List.range_succ]
    have hck : gumbelCk 2 = [2, 1] := by decide
    unfold gumbelCoef
    rcases hm with rfl | rfl | rfl <;>
      simp only [h, hck, bind, Except.bind, pure, Except.pure] <;>
      norm_num [Fl.log_pos]
  · rw [gumbelCoef_methods_partial (by omega) one_pos le_rfl .direct true (by simp) (by simp)]
    simp [List.range_succ, gumbelA_one, Fl.log_pos]

example := gumbelCoef_log_alpha_one .diff (by simp)

end Copulae
