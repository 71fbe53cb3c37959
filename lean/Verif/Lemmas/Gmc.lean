import Verif.Model.Gmc
import Verif.Props.Linalg
import Verif.Props.Marginals
import Verif.Lemmas.Tri

/-!
Helper lemmas for the Gaussian mixture copula.
-/

namespace Copulae

/-- The object with real parameters. -/
def flParam {m d : ℕ} (p : Fin m → ℝ) (μ : Fin m → Fin d → ℝ) (S : Fin m → Matrix (Fin d) (Fin d) ℝ) :
    GMCParam m d :=
  ⟨fun i => .fin (p i), fun i j => .fin (μ i j), fun i => flMat (S i)⟩

theorem sum_ofFn_fin {m : ℕ} (p : Fin m → ℝ) : (List.ofFn fun i => Fl.fin (p i)).sum = .fin (∑ i, p i) := by
  rw [List.sum_ofFn, Fl.sum_fin]

theorem setProb_ok {m : ℕ} (p : Fin m → ℝ) (h0 : ∀ i, 0 ≤ p i) (h1 : ∀ i, p i ≤ 1)
    (hs : |∑ i, p i - 1| ≤ 1e-8 + 1e-5) :
    setProb m (List.ofFn fun i => Fl.fin (p i)) = .ok fun i => .fin (p i) := by
  rw [setProb, dif_pos (List.length_ofFn), if_neg]
  · simp
  · rintro (⟨v, hv, hlt⟩ | ⟨v, hv, hlt⟩ | hc)
    · obtain ⟨i, rfl⟩ := List.mem_ofFn.mp hv
      rw [Fl.fin_lt_fin] at hlt
      exact absurd (h0 i) (not_le.mpr hlt)
    · obtain ⟨i, rfl⟩ := List.mem_ofFn.mp hv
      rw [Fl.fin_lt_fin] at hlt
      exact absurd (h1 i) (not_le.mpr hlt)
    · apply hc
      rw [sum_ofFn_fin]
      simp only [closeTo, abs_one, mul_one]
      exact hs

theorem setCovs_ok (ext : CovNearest) {m d : ℕ} (S : Fin m → Matrix (Fin d) (Fin d) ℝ)
    (hS : ∀ i, (S i).PosSemidef) (g : ℕ → ℕ → ℕ → Fl) (hg : ∀ (i : Fin m) (a b : Fin d), g i a b = .fin (S i a b)) :
    setCovs ext m d ⟨m, d, d, g⟩ = .ok fun i => flMat (S i) := by
  have h : ∀ i : Fin m, nearPsdSq ext (fun a b : Fin d => g i.val a.val b.val) = .ok (flMat (S i)) := by
    intro i
    have e : (fun a b : Fin d => g i.val a.val b.val) = flMat (S i) := by
      funext a b; exact hg i a b
    rw [e, nearPsdSq, if_pos (isSymmetric_self (hS i).1 (by norm_num)), if_pos (isPsd_of_posSemidef ext _ (hS i)).1]
  rw [setCovs, if_pos ⟨rfl, rfl, rfl⟩]
  simp only
  rw [mapM_finRange_ok _ _ h]
  simp only [bind, Except.bind, pure, Except.pure]
  congr 1
  funext i
  exact getD_map_finRange (fun i => flMat (S i)) i _

theorem mk'_ok (ext : CovNearest) {m d : ℕ} (p : Fin m → ℝ) (h0 : ∀ i, 0 ≤ p i) (h1 : ∀ i, p i ≤ 1)
    (hs : |∑ i, p i - 1| ≤ 1e-8 + 1e-5) (μ : Fin m → Fin d → ℝ) (S : Fin m → Matrix (Fin d) (Fin d) ℝ)
    (hS : ∀ i, (S i).PosSemidef) (l : List Fl) (hl : l = List.ofFn fun i => Fl.fin (p i)) (f : ℕ → ℕ → Fl)
    (hf : ∀ (i : Fin m) (j : Fin d), f i j = .fin (μ i j))
    (g : ℕ → ℕ → ℕ → Fl) (hg : ∀ (i : Fin m) (a b : Fin d), g i a b = .fin (S i a b)) :
    GMCParam.mk' ext m d l ⟨m, d, f⟩ ⟨m, d, d, g⟩ = .ok (flParam p μ S) := by
  have hm : setMeans m d ⟨m, d, f⟩ = .ok fun i j => .fin (μ i j) := by
    rw [setMeans, if_pos ⟨rfl, rfl⟩]
    simp only
    congr 1
    funext i j
    exact hf i j
  rw [GMCParam.mk', hl, setProb_ok p h0 h1 hs, hm, setCovs_ok ext S hS g hg]
  rfl

theorem mem_triuPairs {d : ℕ} {x : ℕ × ℕ} : x ∈ triuPairs d ↔ x.1 ≤ x.2 ∧ x.2 < d := by
  obtain ⟨i, j⟩ := x
  simp only [triuPairs, List.mem_flatMap, List.mem_range, List.mem_map, List.mem_range'_1, Prod.mk.injEq]
  constructor
  · rintro ⟨a, ha, b, hb, rfl, rfl⟩
    omega
  · rintro ⟨h1, h2⟩
    exact ⟨i, by omega, j, by omega, rfl, rfl⟩

theorem nodup_triuPairs (d : ℕ) : (triuPairs d).Nodup := by
  rw [triuPairs, List.nodup_flatMap]
  refine ⟨fun i _ => ?_, ?_⟩
  · exact List.Nodup.map (fun a b h => by simpa using h) List.nodup_range'
  · refine List.nodup_range.imp fun {a b} hab => ?_
    rw [Function.onFun, List.disjoint_left]
    intro x hx hx'
    simp only [List.mem_map] at hx hx'
    obtain ⟨_, _, rfl⟩ := hx
    obtain ⟨_, _, h⟩ := hx'
    exact hab (by simpa using (congrArg Prod.fst h).symm)

theorem length_triuPairs (d : ℕ) : (triuPairs d).length = d * (d + 1) / 2 := by
  have h : (triuPairs d).length = ∑ i ∈ Finset.range d, (d - i) := by
    rw [triuPairs, List.length_flatMap]
    simp only [List.length_map, List.length_range']
    rfl
  have h2 : ∑ i ∈ Finset.range d, (d - i) = ∑ i ∈ Finset.range d, (i + 1) := by
    rw [← Finset.sum_range_reflect]
    refine Finset.sum_congr rfl fun i hi => ?_
    have := Finset.mem_range.mp hi
    omega
  have h3 := Finset.sum_range_succ' (fun i => i) d
  have h4 := Finset.sum_range_id_mul_two (d + 1)
  rw [Nat.add_sub_cancel] at h4
  rw [h, h2]
  have h5 : d * (d + 1) = (∑ i ∈ Finset.range d, (i + 1)) * 2 := by rw [← mul_comm, ← h4, h3, add_zero]
  omega

theorem zip_map_self {α β : Type} (f : α → β) (l : List α) : l.zip (l.map f) = l.map fun x => (x, f x) := by
  induction l with
  | nil => rfl
  | cons a l ih => rw [List.map_cons, List.zip_cons_cons, ih, List.map_cons]

theorem covOfUpper_upper {d : ℕ} (S : Matrix (Fin d) (Fin d) ℝ) (hS : S.IsHermitian) :
    covOfUpper d (covUpper (flMat S)) = .ok (flMat S) := by
  set f : ℕ × ℕ → Fl := fun x => if h : x.1 < d ∧ x.2 < d then flMat S ⟨x.1, h.1⟩ ⟨x.2, h.2⟩ else .nan with hf
  have hz : (triuPairs d).unzip.1.zip (triuPairs d).unzip.2 = triuPairs d := List.zip_unzip _
  have hany : (triuPairs d).any (fun c => decide (d ≤ c.1 ∨ d ≤ c.2)) = false := by
    rw [List.any_eq_false]
    intro c hc
    have := mem_triuPairs.mp hc
    simp only [decide_eq_true_eq]
    omega
  have hup : covUpper (flMat S) = (triuPairs d).map f := rfl
  have hcells : (triuPairs d).zip ((triuPairs d).map f) = (triuPairs d).map fun x => (x, f x) :=
    zip_map_self _ _
  have hassign : fancyAssign (fun _ _ => Fl.fin 0 : SqMat Fl d) (triuPairs d).unzip (covUpper (flMat S)) =
      .ok (setCells (fun _ _ => Fl.fin 0 : SqMat Fl d) ((triuPairs d).map fun x => (x, f x))) := by
    unfold fancyAssign
    simp only [hz, hany, hup, List.length_map, if_true, hcells, Bool.false_eq_true, if_false]
  have hfst : ((triuPairs d).map fun x => (x, f x)).map Prod.fst = triuPairs d := by
    rw [List.map_map]
    exact List.map_id' _
  have hle : ∀ i j : Fin d, i ≤ j →
      setCells (fun _ _ => Fl.fin 0 : SqMat Fl d) ((triuPairs d).map fun x => (x, f x)) i j = .fin (S i j) := by
    intro i j hij
    refine setCells_of_mem _ _ _ _ _ (by rw [hfst]; exact nodup_triuPairs d) ?_
    rw [List.mem_map]
    refine ⟨(i.val, j.val), mem_triuPairs.mpr ⟨hij, j.2⟩, ?_⟩
    simp [hf, flMat]
  have hgt : ∀ i j : Fin d, j < i →
      setCells (fun _ _ => Fl.fin 0 : SqMat Fl d) ((triuPairs d).map fun x => (x, f x)) i j = .fin 0 := by
    intro i j hij
    rw [setCells_of_not_mem]
    rw [hfst, mem_triuPairs]
    have : j.val < i.val := hij
    simp only
    omega
  rw [covOfUpper, hassign]
  simp only [bind, Except.bind, pure, Except.pure]
  congr 1
  funext i j
  have hs : S j i = S i j := by simpa using hS.apply i j
  rcases lt_trichotomy i j with h | h | h
  · rw [if_pos h, hle i j h.le, hgt j i h, Fl.fin_add_fin, add_zero]; rfl
  · subst h
    rw [if_neg (lt_irrefl _), hle i i le_rfl, Fl.fin_add_fin, zero_add]; rfl
  · rw [if_neg (not_lt.mpr h.le), hle j i h.le, Fl.fin_add_fin, zero_add, hs]; rfl

theorem blocks_flatMap {α : Type} (step : ℕ) (hstep : 0 < step) (f : α → List Fl) (l : List α)
    (hf : ∀ a ∈ l, (f a).length = step) (fuel : ℕ) (h : l.length ≤ fuel) :
    blocks step fuel (l.flatMap f) = l.map f := by
  induction l generalizing fuel with
  | nil => cases fuel <;> rfl
  | cons a l ih =>
    obtain ⟨fuel, rfl⟩ : ∃ k, fuel = k + 1 := ⟨fuel - 1, by simp at h; omega⟩
    have ha := hf a List.mem_cons_self
    rw [List.flatMap_cons, List.map_cons]
    have hne : f a ++ l.flatMap f ≠ [] := by
      intro h0
      have := congrArg List.length h0
      simp [ha] at this
      omega
    rw [blocks]
    · rw [← ha, List.take_left, List.drop_left, ha, ih (fun b hb => hf b (List.mem_cons_of_mem _ hb)) fuel (by simpa using h)]
    · exact hne

end Copulae
