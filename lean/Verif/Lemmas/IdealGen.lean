import Verif.Lemmas.Draws
import Mathlib.Probability.ProductMeasure

/-!
An ideal random generator: the state is an infinite sequence whose entries hold an answer to every possible request.
-/

namespace Copulae

open MeasureTheory ProbabilityTheory Set Spec

/-- The draws of `Gen` for which an ideal generator has obligations. -/
inductive Req : Type
  | uniform (n d : ℕ)
  | uniform1 (n : ℕ)
  | gamma (a : ℝ) (h : 0 < a) (n : ℕ)
  | expo (n : ℕ)
  | chisq (ν : ℝ) (h : 0 < ν) (n : ℕ)
  | randint (m n : ℕ) (h : 0 < m)
  | choice (k n : ℕ) (p : Fin k → ℝ) (h0 : ∀ c, 0 ≤ p c) (h1 : ∑ c, p c = 1)
  | normal (n : ℕ)
  | mvn (n d : ℕ) (mean : Fin d → ℝ) (S : Matrix (Fin d) (Fin d) ℝ) (h : S.PosSemidef)

/-- The type of the answer. -/
def Req.Val : Req → Type
  | .uniform n d => Fin n → Fin d → ℝ
  | .uniform1 n => Fin n → ℝ
  | .gamma _ _ n => Fin n → ℝ
  | .expo n => Fin n → ℝ
  | .chisq _ _ n => Fin n → ℝ
  | .randint m n _ => Fin n → Fin m
  | .choice k n _ _ _ => Fin n → Fin k
  | .normal n => Fin n → ℝ
  | .mvn n d _ _ _ => Fin n → Fin d → ℝ

instance : (r : Req) → MeasurableSpace r.Val
  | .uniform n d => inferInstanceAs (MeasurableSpace (Fin n → Fin d → ℝ))
  | .uniform1 n => inferInstanceAs (MeasurableSpace (Fin n → ℝ))
  | .gamma _ _ n => inferInstanceAs (MeasurableSpace (Fin n → ℝ))
  | .expo n => inferInstanceAs (MeasurableSpace (Fin n → ℝ))
  | .chisq _ _ n => inferInstanceAs (MeasurableSpace (Fin n → ℝ))
  | .randint m n _ => inferInstanceAs (MeasurableSpace (Fin n → Fin m))
  | .choice k n _ _ _ => inferInstanceAs (MeasurableSpace (Fin n → Fin k))
  | .normal n => inferInstanceAs (MeasurableSpace (Fin n → ℝ))
  | .mvn n d _ _ _ => inferInstanceAs (MeasurableSpace (Fin n → Fin d → ℝ))

/-- The law of the answer. -/
noncomputable def Req.law : (r : Req) → Measure r.Val
  | .uniform n d => iid n (iid d unif)
  | .uniform1 n => iid n unif
  | .gamma a _ n => iid n (gammaMeasure a 1)
  | .expo n => iid n (expMeasure 1)
  | .chisq ν _ n => iid n (gammaMeasure (ν / 2) (1 / 2))
  | .randint m n _ => iid n (pick fun _ : Fin m => 1 / m)
  | .choice _ n p _ _ => iid n (pick p)
  | .normal n => iid n (gaussianReal 0 1)
  | .mvn n _ mean S _ => iid n (normalLaw mean S)

instance (r : Req) : IsProbabilityMeasure r.law := by
  cases r with
  | uniform n d => exact inferInstanceAs (IsProbabilityMeasure (iid n (iid d unif)))
  | uniform1 n => exact inferInstanceAs (IsProbabilityMeasure (iid n unif))
  | gamma a h n =>
    have := isProbabilityMeasure_gammaMeasure h one_pos
    exact inferInstanceAs (IsProbabilityMeasure (iid n (gammaMeasure a 1)))
  | expo n =>
    have := isProbabilityMeasure_expMeasure one_pos
    exact inferInstanceAs (IsProbabilityMeasure (iid n (expMeasure 1)))
  | chisq ν h n =>
    have := isProbabilityMeasure_gammaMeasure (half_pos h) (half_pos one_pos)
    exact inferInstanceAs (IsProbabilityMeasure (iid n (gammaMeasure (ν / 2) (1 / 2))))
  | randint m n h =>
    have : IsProbabilityMeasure (pick fun _ : Fin m => (1 : ℝ) / m) := pick_prob (fun _ => by positivity) (by simp; field_simp)
    exact inferInstanceAs (IsProbabilityMeasure (iid n (pick fun _ : Fin m => (1 : ℝ) / m)))
  | choice k n p h0 h1 =>
    have := pick_prob h0 h1
    exact inferInstanceAs (IsProbabilityMeasure (iid n (pick p)))
  | normal n => exact inferInstanceAs (IsProbabilityMeasure (iid n (gaussianReal 0 1)))
  | mvn n d mean S h => exact inferInstanceAs (IsProbabilityMeasure (iid n (normalLaw mean S)))

/-- An answer to every request. -/
abbrev Answers := (r : Req) → r.Val

/-- Independent answers. -/
noncomputable def answerLaw : Measure Answers := Measure.infinitePi Req.law

instance : IsProbabilityMeasure answerLaw := by
  unfold answerLaw
  infer_instance

/-- Independent rounds of answers. -/
noncomputable def streamLaw : Measure (ℕ → Answers) := Measure.infinitePi fun _ => answerLaw

instance : IsProbabilityMeasure streamLaw := by
  unfold streamLaw
  infer_instance

/-- The first round is independent of the later ones. -/
theorem stream_split {Ω : Type} [MeasurableSpace Ω] (Q : Measure Ω) [IsProbabilityMeasure Q] :
    (Measure.infinitePi fun _ : ℕ => Q).map (fun s => (s 0, fun n => s (n + 1))) =
      Q.prod (Measure.infinitePi fun _ : ℕ => Q) := by
  let cons : Ω × (ℕ → Ω) → ℕ → Ω := fun p n => Nat.casesOn n p.1 p.2
  have hcons : Measurable cons := by
    refine measurable_pi_lambda _ fun n => ?_
    cases n with
    | zero => exact measurable_fst
    | succ n => exact (measurable_pi_apply n).comp measurable_snd
  have hsplit : Measurable fun s : ℕ → Ω => (s 0, fun n => s (n + 1)) :=
    (measurable_pi_apply 0).prodMk (measurable_pi_lambda _ fun n => measurable_pi_apply (n + 1))
  have key : (Q.prod (Measure.infinitePi fun _ : ℕ => Q)).map cons = Measure.infinitePi fun _ : ℕ => Q := by
    classical
    refine Measure.eq_infinitePi _ fun s t ht => ?_
    obtain ⟨N, hN⟩ : ∃ N, s ⊆ Finset.range (N + 1) := by
      obtain ⟨N, hN⟩ := s.exists_nat_subset_range
      exact ⟨N, hN.trans (Finset.range_mono (Nat.le_succ N))⟩
    let t' : ℕ → Set Ω := fun i => if i ∈ s then t i else univ
    have ht' : ∀ i, MeasurableSet (t' i) := fun i => by
      simp only [t']
      split_ifs
      · exact ht i
      · exact MeasurableSet.univ
    have e1 : Set.pi (s : Set ℕ) t = Set.pi (Finset.range (N + 1) : Set ℕ) t' := by
      ext x
      simp only [mem_pi, Finset.mem_coe, t']
      constructor
      · intro hx i _
        split_ifs with hi
        · exact hx i hi
        · trivial
      · intro hx i hi
        have := hx i (hN hi)
        rwa [if_pos hi] at this
    have e2 : ∏ i ∈ s, Q (t i) = ∏ i ∈ Finset.range (N + 1), Q (t' i) := by
      rw [← Finset.prod_subset hN (f := fun i => Q (t' i))]
      · exact Finset.prod_congr rfl fun i hi => by simp [t', hi]
      · intro i _ hi
        simp [t', hi]
    have e3 : cons ⁻¹' Set.pi (Finset.range (N + 1) : Set ℕ) t' =
        t' 0 ×ˢ Set.pi (Finset.range N : Set ℕ) fun i => t' (i + 1) := by
      ext p
      simp only [mem_preimage, mem_pi, Finset.mem_coe, Finset.mem_range, mem_prod]
      constructor
      · intro hp
        exact ⟨hp 0 (Nat.succ_pos N), fun i hi => hp (i + 1) (Nat.succ_lt_succ hi)⟩
      · rintro ⟨h0, h1⟩ i hi
        cases i with
        | zero => exact h0
        | succ i => exact h1 i (Nat.lt_of_succ_lt_succ hi)
    rw [e1, e2, Measure.map_apply hcons (MeasurableSet.pi (Finset.countable_toSet _) fun i _ => ht' i), e3,
      Measure.prod_prod, Measure.infinitePi_pi _ fun i _ => ht' (i + 1), Finset.prod_range_succ', mul_comm]
  conv_lhs => rw [← key]
  rw [Measure.map_map hsplit hcons]
  exact Measure.map_id

/-- The generator. Seeding gives an arbitrary stream. -/
noncomputable def idealGen (seeded : ℕ → ℕ → Answers) : Gen where
  S := ℕ → Answers
  ofSeed := seeded
  uniform n d s := (matFl (s 0 (.uniform n d)), fun k => s (k + 1))
  uniform1 n s := (s 0 (.uniform1 n), fun k => s (k + 1))
  gamma a n s := by
    classical
    exact if h : 0 < a then (fun i => .fin ((s 0 (.gamma a h n) : Fin n → ℝ) i), fun k => s (k + 1)) else (fun _ => .nan, s)
  expo n s := (s 0 (.expo n), fun k => s (k + 1))
  chisq ν n s := by
    classical
    exact if h : 0 < ν then (s 0 (.chisq ν h n), fun k => s (k + 1)) else (fun _ => 0, s)
  randint m n s := if h : 0 < m then (fun i => ((s 0 (.randint m n h) : Fin n → Fin m) i : ℕ), fun k => s (k + 1)) else (0, s)
  choice k n p s := by
    classical
    exact if h : (∀ c, 0 ≤ p c) ∧ ∑ c, p c = 1 then
      (fun i => ((s 0 (.choice k n p h.1 h.2) : Fin n → Fin k) i : ℕ), fun k => s (k + 1)) else (0, s)
  normal n s := (s 0 (.normal n), fun k => s (k + 1))
  mvn n d mean S s := by
    classical
    exact if h : Matrix.PosSemidef (Matrix.of S) then (s 0 (.mvn n d mean (Matrix.of S) h), fun k => s (k + 1)) else (0, s)

noncomputable instance (seeded : ℕ → ℕ → Answers) : MeasurableSpace (idealGen seeded).S :=
  inferInstanceAs (MeasurableSpace (ℕ → Answers))

theorem stream_request (r : Req) :
    streamLaw.map (fun s => (s 0 r, fun k => s (k + 1))) = r.law.prod streamLaw := by
  have h := stream_split answerLaw
  have hm : Measurable fun s : ℕ → Answers => (s 0, fun n => s (n + 1)) :=
    (measurable_pi_apply 0).prodMk (measurable_pi_lambda _ fun n => measurable_pi_apply (n + 1))
  have hr : Measurable fun a : Answers => a r := measurable_pi_apply r
  have e : (streamLaw.map fun s => (s 0, fun n => s (n + 1))).map (Prod.map (fun a : Answers => a r) id) =
      streamLaw.map fun s => (s 0 r, fun k => s (k + 1)) :=
    Measure.map_map (hr.prodMap measurable_id) hm
  rw [← e]
  unfold streamLaw at h ⊢
  rw [h, ← Measure.map_prod_map _ _ hr measurable_id, Measure.map_id, answerLaw, Measure.infinitePi_map_eval]

theorem draws_request {G : Gen} [MeasurableSpace G.S] {P : Measure G.S} {α β : Type} [MeasurableSpace β] {f : G.S → α × G.S}
    {e : β → α} {L : Measure β} {X : G.S → β} {nx : G.S → G.S} (hX : Measurable X) (hn : Measurable nx)
    (hf : ∀ s, f s = (e (X s), nx s)) (hmap : P.map (fun s => (X s, nx s)) = L.prod P) : Draws P (Rnd.draw f) e L :=
  ⟨X, nx, hX, hn, Filter.Eventually.of_forall fun s => by rw [exec_draw, hf], hmap⟩

theorem measurable_request (r : Req) : Measurable fun s : ℕ → Answers => s 0 r :=
  (measurable_pi_apply r).comp (measurable_pi_apply 0)

theorem measurable_tail : Measurable fun (s : ℕ → Answers) (k : ℕ) => s (k + 1) :=
  measurable_pi_lambda _ fun n => measurable_pi_apply (n + 1)

/-- The contract of an ideal generator can be met. -/
theorem idealGen_isIdeal (seeded : ℕ → ℕ → Answers) : IsIdeal (idealGen seeded) streamLaw where
  prob := inferInstanceAs (IsProbabilityMeasure streamLaw)
  uniform n d := draws_request (measurable_request _) measurable_tail (fun _ => rfl) (stream_request (.uniform n d))
  uniform1 n := draws_request (measurable_request _) measurable_tail (fun _ => rfl) (stream_request (.uniform1 n))
  gamma a h n := draws_request (measurable_request _) measurable_tail (fun _ => dif_pos h) (stream_request (.gamma a h n))
  expo n := draws_request (measurable_request _) measurable_tail (fun _ => rfl) (stream_request (.expo n))
  chisq ν h n := draws_request (measurable_request _) measurable_tail (fun _ => dif_pos h) (stream_request (.chisq ν h n))
  randint m n h := draws_request (measurable_request _) measurable_tail (fun _ => dif_pos h) (stream_request (.randint m n h))
  choice k n p h0 h1 := draws_request (measurable_request _) measurable_tail (fun _ => dif_pos ⟨h0, h1⟩)
    (stream_request (.choice k n p h0 h1))
  normal n := draws_request (measurable_request _) measurable_tail (fun _ => rfl) (stream_request (.normal n))
  mvn n d mean S h := draws_request (measurable_request _) measurable_tail (fun _ => dif_pos h) (stream_request (.mvn n d mean S h))

end Copulae
