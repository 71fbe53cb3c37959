import Verif.Props.GofReplicates

/-!
C90: the tie methods in the replications of `gof_copula`.
-/

namespace Copulae

/-- C90: a replication treats its sample as the data are treated: the copula is fitted to the pseudo-observations with the ties broken by
`fit_ties`, and the statistic is that of the pseudo-observations with the ties broken by `ties`. If the data have no ties, the sample is used
as it is drawn; otherwise it is tied as the data are (see C46). -/
theorem gofReplicate_spec {n p : ℕ} {σ : Type} (fit : (Fin n → Fin p → ℝ) → Except PyErr σ)
    (cdf : σ → (Fin n → Fin p → ℝ) → Fin n → Fl) (data u : Fin n → Fin p → ℝ) {ties fitTies : String}
    {t t' : TieMethod} (ht : parseTies ties = .ok t) (ht' : parseTies fitTies = .ok t') :
    ∃ v : Fin n → Fin p → ℝ,
      ((∀ j, Function.Injective fun k => data k j) → v = u) ∧
      ((∃ j, ¬ Function.Injective fun k => data k j) → v = gofResort (fun i j => tieIndex (fun k => data k j) i) u) ∧
      gofReplicate fit cdf data u ties fitTies =
        (fit fun i j => (rankdata t' (fun k => v k j) i : ℝ) / (n + 1)).map fun c =>
          ∑ i, (fun D => D * D) (empDist (n := n) empCop
            (fun i j => (rankdata t (fun k => v k j) i : ℝ) / (n + 1)) 0
              (fun j => .fin ((rankdata t (fun k => v k j) i : ℝ) / (n + 1)))
            - cdf c (fun i j => (rankdata t (fun k => v k j) i : ℝ) / (n + 1)) i) := by
  have ha : anyTies data = true ↔ ∃ j, ¬ Function.Injective fun k => data k j := by
    unfold anyTies
    exact iff_of_eq (@decide_eq_true_eq _ (_))
  refine ⟨if anyTies data then gofResort (fun i j => tieIndex (fun k => data k j) i) u else u, fun h => ?_, fun h => ?_, ?_⟩
  · rw [if_neg]
    rw [ha]
    rintro ⟨j, hj⟩
    exact hj (h j)
  · rw [if_pos (ha.mpr h)]
  · unfold gofReplicate
    simp only [gofFit_spec fit cdf _ ht ht']
    generalize (if anyTies data = true then gofResort (fun i j => tieIndex (fun k => data k j) i) u else u) = v
    cases fit fun i j => (rankdata t' (fun k => v k j) i : ℝ) / (n + 1) <;> rfl

/-- Case: data with ties and two tie methods. -/
example := gofReplicate_spec (n := 3) (p := 2) (σ := Unit) (fun _ => .ok ()) (fun _ _ _ => .fin (1 / 2)) (fun i _ => ![1, 1, 2] i)
  (fun i _ => ![1 / 2, 1 / 3, 1 / 4] i) (ties := "max") (fitTies := "average") (t := .max) (by decide) parseTies_average

end Copulae
