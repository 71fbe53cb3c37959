import Mathlib.Algebra.Order.Ring.Basic
import Mathlib.Algebra.BigOperators.Group.List.Basic
import Mathlib.Tactic.FinCases
import Mathlib.Tactic.Tauto
import Verif.Props.Correlation

/-!
C171: what a correlation matrix depends on.
-/

namespace Copulae

open Classical

namespace Spec

/-- A column in another scale: numbers are transformed, missing and infinite values stay. -/
def rescale (g : ℝ → ℝ) : Fl → Fl
  | .fin x => .fin (g x)
  | z => z

/-- A coefficient of two samples of numbers that is the same in every scale of the kind `S`. `scipy.stats.kendalltau` and `spearmanr` are for
the strictly increasing ones, with and without ties and for samples of any size (whether they return or raise); `pearsonr` is for the affine
ones with a positive slope, in exact arithmetic. -/
def ScaleFree (S : (ℝ → ℝ) → Prop) (f : List Fl → List Fl → Except PyErr Fl) : Prop :=
  ∀ (g h : ℝ → ℝ), S g → S h → ∀ u v : List ℝ, u.length = v.length →
    f ((u.map g).map .fin) ((v.map h).map .fin) = f (u.map .fin) (v.map .fin)

/-- A coefficient of pairs that does not depend on their order; `pearsonr`, `kendalltau` and `spearmanr` are, in exact arithmetic. -/
def OrderFree (f : List Fl → List Fl → Except PyErr Fl) : Prop :=
  ∀ l l' : List (Fl × Fl), l.Perm l' → f (l.map Prod.fst) (l.map Prod.snd) = f (l'.map Prod.fst) (l'.map Prod.snd)

/-- Affine with a positive slope. -/
def PosAffine (g : ℝ → ℝ) : Prop := ∃ a b : ℝ, 0 < a ∧ ∀ x, g x = a * x + b

/-- A column that is turned over, or not. -/
def turn (b : Bool) (z : Fl) : Fl := if b then z.neg else z

/-- A coefficient that changes its sign when one of the samples is turned over; `pearsonr`, `kendalltau` and `spearmanr` do. -/
def SignChanging (f : List Fl → List Fl → Except PyErr Fl) : Prop :=
  ∀ u v : List ℝ, u.length = v.length → f ((u.map .fin).map Fl.neg) (v.map .fin) = (f (u.map .fin) (v.map .fin)).map Fl.neg ∧
    f (u.map .fin) ((v.map .fin).map Fl.neg) = (f (u.map .fin) (v.map .fin)).map Fl.neg

end Spec

open Spec

variable {S : (ℝ → ℝ) → Prop} {f : List Fl → List Fl → Except PyErr Fl} {fns : CorrFns} {p : ℕ} {method use : String}

@[simp] theorem rescale_isNan (g : ℝ → ℝ) (z : Fl) : (rescale g z).isNan ↔ z.isNan := by cases z <;> rfl

@[simp] theorem rescale_isFin (g : ℝ → ℝ) (z : Fl) : (rescale g z).isFin ↔ z.isFin := by cases z <;> rfl

theorem finite_list : ∀ l : List Fl, (∀ z ∈ l, z.isFin) → ∃ u : List ℝ, l = u.map .fin
  | [], _ => ⟨[], rfl⟩
  | z :: l, h => by
    obtain ⟨u, rfl⟩ := finite_list l fun a ha => h a (List.mem_cons_of_mem _ ha)
    have hz := h z List.mem_cons_self
    cases z with
    | fin x => exact ⟨x :: u, rfl⟩
    | nan => exact hz.elim
    | ninf => exact hz.elim
    | pinf => exact hz.elim

theorem computeCorr_rescale (hf : ScaleFree S f) {g h : ℝ → ℝ} (hg : S g) (hh : S h) (l : List (Fl × Fl)) :
    computeCorr f ((l.map Prod.fst).map (rescale g)) ((l.map Prod.snd).map (rescale h)) = computeCorr f (l.map Prod.fst) (l.map Prod.snd) := by
  have hz : ((l.map Prod.fst).map (rescale g)).zip ((l.map Prod.snd).map (rescale h)) = l.map fun e => (rescale g e.1, rescale h e.2) := by
    rw [List.map_map, List.map_map, List.zip_map']
    rfl
  have hz' : (l.map Prod.fst).zip (l.map Prod.snd) = l := by
    rw [List.zip_map']
    exact List.map_id l
  unfold computeCorr
  rw [hz, hz', List.any_map]
  have e : ((fun e : Fl × Fl => decide (¬ e.1.isFin ∨ ¬ e.2.isFin)) ∘ fun e : Fl × Fl => (rescale g e.1, rescale h e.2)) =
      fun e : Fl × Fl => decide (¬ e.1.isFin ∨ ¬ e.2.isFin) := by
    funext e
    simp only [Function.comp, rescale_isFin]
  rw [e]
  by_cases hany : (l.any fun e => decide (¬ e.1.isFin ∨ ¬ e.2.isFin)) = true
  · rw [if_pos hany, if_pos hany]
  · rw [if_neg hany, if_neg hany]
    have hfin : ∀ e ∈ l, e.1.isFin ∧ e.2.isFin := fun e he => by
      by_contra hne
      refine hany (List.any_eq_true.mpr ⟨e, he, decide_eq_true ?_⟩)
      tauto
    obtain ⟨u, hu⟩ := finite_list (l.map Prod.fst) fun z hz => by
      obtain ⟨e, he, rfl⟩ := List.mem_map.mp hz
      exact (hfin e he).1
    obtain ⟨v, hv⟩ := finite_list (l.map Prod.snd) fun z hz => by
      obtain ⟨e, he, rfl⟩ := List.mem_map.mp hz
      exact (hfin e he).2
    have hl : u.length = v.length := by
      have h1 := congrArg List.length hu
      have h2 := congrArg List.length hv
      simp only [List.length_map] at h1 h2
      omega
    rw [hu, hv]
    have := hf g h hg hh u v hl
    simp only [List.map_map] at this ⊢
    exact this

/-- The pairs compared for columns `i` and `j`. -/
theorem corrVectors_pairs (u : CorrUse) (i j : Fin p) : ∃ q : (Fin p → Fl) → Bool,
    (∀ (g : Fin p → ℝ → ℝ) r, q (fun k => rescale (g k) (r k)) = q r) ∧ ∀ rows, corrVectors rows u i j =
      (((rows.filter q).map fun r => (r i, r j)).map Prod.fst, ((rows.filter q).map fun r => (r i, r j)).map Prod.snd) := by
  cases u with
  | everything => exact ⟨fun _ => true, fun _ _ => rfl, fun rows => by simp [corrVectors, Function.comp_def]⟩
  | complete =>
    exact ⟨fun r => decide (∀ k, ¬ (r k).isNan), fun g r => by simp, fun rows => by simp [corrVectors, Function.comp_def]⟩
  | pairwise =>
    exact ⟨fun r => decide (¬ (r i).isNan ∧ ¬ (r j).isNan), fun g r => by simp, fun rows => by simp [corrVectors, Function.comp_def]⟩

theorem corrStep_rescale (hf : ScaleFree S f) {g : Fin p → ℝ → ℝ} (hg : ∀ k, S (g k)) (rows : List (Fin p → Fl)) (u : CorrUse) :
    corrStep f u (rows.map fun r k => rescale (g k) (r k)) = corrStep f u rows := by
  funext c ij
  obtain ⟨q, hq, hv⟩ := corrVectors_pairs u ij.1 ij.2
  unfold corrStep
  rw [hv, hv, List.filter_map]
  have e : (q ∘ fun (r : Fin p → Fl) k => rescale (g k) (r k)) = q := funext fun r => hq g r
  rw [e]
  have h1 := computeCorr_rescale hf (hg ij.1) (hg ij.2) ((rows.filter q).map fun r => (r ij.1, r ij.2))
  simp only [List.map_map, Function.comp_def] at h1 ⊢
  rw [h1]

theorem corr_rescale (hfn : ∀ f, corrFunc fns method = .ok f → ScaleFree S f) {g : Fin p → ℝ → ℝ} (hg : ∀ k, S (g k))
    (rows : List (Fin p → Fl)) : corr fns (.mat p (rows.map fun r k => rescale (g k) (r k))) none method use =
      corr fns (.mat p rows) none method use := by
  unfold corr
  cases validateUse use with
  | error e => rfl
  | ok u =>
    cases h : corrFunc fns method with
    | error e => rfl
    | ok f =>
      simp only [bind, Except.bind]
      rw [corrStep_rescale (hfn f h) hg]

theorem corr_pair_rescale (hfn : ∀ f, corrFunc fns method = .ok f → ScaleFree S f) {g h : ℝ → ℝ} (hg : S g) (hh : S h) (x y : List Fl) :
    corr fns (.vec (x.map (rescale g))) (some (.vec (y.map (rescale h)))) method use = corr fns (.vec x) (some (.vec y)) method use := by
  unfold corr
  cases validateUse use with
  | error e => rfl
  | ok u =>
    cases hf : corrFunc fns method with
    | error e => rfl
    | ok f =>
      simp only [bind, Except.bind]
      by_cases hl : x.length = y.length
      · obtain ⟨l, rfl, rfl⟩ : ∃ l : List (Fl × Fl), x = l.map Prod.fst ∧ y = l.map Prod.snd :=
          ⟨x.zip y, (List.map_fst_zip hl.le).symm, (List.map_snd_zip hl.ge).symm⟩
        have hz' : (l.map Prod.fst).zip (l.map Prod.snd) = l := by
          rw [List.zip_map']
          exact List.map_id l
        have hz : ((l.map Prod.fst).map (rescale g)).zip ((l.map Prod.snd).map (rescale h)) = l.map fun e => (rescale g e.1, rescale h e.2) := by
          rw [List.map_map, List.map_map, List.zip_map']
          rfl
        have hl' : ¬ ((l.map Prod.fst).map (rescale g)).length ≠ ((l.map Prod.snd).map (rescale h)).length := by simp
        have e : ((fun e : Fl × Fl => decide (¬ (e.1.isNan ∨ e.2.isNan))) ∘ fun e : Fl × Fl => (rescale g e.1, rescale h e.2)) =
            fun e : Fl × Fl => decide (¬ (e.1.isNan ∨ e.2.isNan)) := by
          funext e
          simp only [Function.comp, rescale_isNan]
        unfold formXY
        rw [if_neg hl', if_neg (not_not.mpr hl)]
        cases u with
        | everything =>
          simp only
          rw [computeCorr_rescale (hfn f hf) hg hh l]
        | complete =>
          simp only
          rw [hz, hz', List.filter_map, e]
          have := computeCorr_rescale (hfn f hf) hg hh (l.filter fun e => decide (¬ (e.1.isNan ∨ e.2.isNan)))
          simp only [List.map_map, Function.comp_def] at this ⊢
          rw [this]
        | pairwise =>
          simp only
          rw [hz, hz', List.filter_map, e]
          have := computeCorr_rescale (hfn f hf) hg hh (l.filter fun e => decide (¬ (e.1.isNan ∨ e.2.isNan)))
          simp only [List.map_map, Function.comp_def] at this ⊢
          rw [this]
      · have hl' : (x.map (rescale g)).length ≠ (y.map (rescale h)).length := by simpa using hl
        unfold formXY
        rw [if_pos hl', if_pos hl]

theorem rank_scaleFree (hk : ScaleFree StrictMono fns.kendall) (hs : ScaleFree StrictMono fns.spearman)
    (hm : pyLower method ≠ "pearson".toList) : corrFunc fns method = .ok f → ScaleFree StrictMono f := fun h => by
  obtain ⟨h1, h2, -, h4⟩ := corrFunc_names fns method
  by_cases hmem : pyLower method ∈ ["pearson".toList, "kendall".toList, "spearman".toList, "tau".toList, "rho".toList]
  · simp only [List.mem_cons, List.not_mem_nil, or_false] at hmem
    rcases hmem with e | e | e | e | e
    · exact absurd e hm
    · rw [h1 (.inl e)] at h; rwa [← Except.ok.inj h]
    · rw [h2 (.inl e)] at h; rwa [← Except.ok.inj h]
    · rw [h1 (.inr e)] at h; rwa [← Except.ok.inj h]
    · rw [h2 (.inr e)] at h; rwa [← Except.ok.inj h]
  · rw [h4 hmem] at h
    cases h

/-- **C171** Kendall's tau and Spearman's rho depend on the order within the columns only: strictly increasing transformations of the columns
change nothing, for every treatment of missing values, neither the matrix nor the exception. -/
theorem corr_increasing (hk : ScaleFree StrictMono fns.kendall) (hs : ScaleFree StrictMono fns.spearman)
    (hm : pyLower method ≠ "pearson".toList) {g : Fin p → ℝ → ℝ} (hg : ∀ k, StrictMono (g k)) (rows : List (Fin p → Fl)) :
    corr fns (.mat p (rows.map fun r k => rescale (g k) (r k))) none method use = corr fns (.mat p rows) none method use :=
  corr_rescale (S := StrictMono) (fun _ => rank_scaleFree hk hs hm) hg rows

/-- **C171** The same for two vectors. -/
theorem corr_pair_increasing (hk : ScaleFree StrictMono fns.kendall) (hs : ScaleFree StrictMono fns.spearman)
    (hm : pyLower method ≠ "pearson".toList) {g h : ℝ → ℝ} (hg : StrictMono g) (hh : StrictMono h) (x y : List Fl) :
    corr fns (.vec (x.map (rescale g))) (some (.vec (y.map (rescale h)))) method use = corr fns (.vec x) (some (.vec y)) method use :=
  corr_pair_rescale (S := StrictMono) (fun _ => rank_scaleFree hk hs hm) hg hh x y

/-- **C171** Pearson's coefficient does not depend on unit and origin of the columns, or of the two vectors. -/
theorem corr_units (hp : ScaleFree PosAffine fns.pearson) (hm : pyLower method = "pearson".toList) :
    (∀ (g : Fin p → ℝ → ℝ) (rows : List (Fin p → Fl)), (∀ k, PosAffine (g k)) →
      corr fns (.mat p (rows.map fun r k => rescale (g k) (r k))) none method use = corr fns (.mat p rows) none method use) ∧
    ∀ (g h : ℝ → ℝ) (x y : List Fl), PosAffine g → PosAffine h →
      corr fns (.vec (x.map (rescale g))) (some (.vec (y.map (rescale h)))) method use = corr fns (.vec x) (some (.vec y)) method use := by
  have hfn : ∀ f, corrFunc fns method = .ok f → ScaleFree PosAffine f := fun f h => by
    rw [(corrFunc_names fns method).2.2.1 hm] at h
    rwa [← Except.ok.inj h]
  exact ⟨fun g rows hg => corr_rescale hfn hg rows, fun g h x y hg hh => corr_pair_rescale hfn hg hh x y⟩

/-- **C171** The order of the rows does not matter. -/
theorem corr_row_order (hp : OrderFree fns.pearson) (hk : OrderFree fns.kendall) (hs : OrderFree fns.spearman)
    {rows rows' : List (Fin p → Fl)} (hr : rows.Perm rows') :
    corr fns (.mat p rows) none method use = corr fns (.mat p rows') none method use := by
  have hfn : ∀ f, corrFunc fns method = .ok f → OrderFree f := fun f h => by
    unfold corrFunc at h
    simp only at h
    split_ifs at h <;> (rw [← Except.ok.inj h]; assumption)
  unfold corr
  cases validateUse use with
  | error e => rfl
  | ok u =>
    cases h : corrFunc fns method with
    | error e => rfl
    | ok f =>
      simp only [bind, Except.bind]
      have e : corrStep f u rows = corrStep f u rows' := by
        funext c ij
        obtain ⟨q, -, hv⟩ := corrVectors_pairs u ij.1 ij.2
        have hl := (hr.filter q).map fun r => (r ij.1, r ij.2)
        have hz : ∀ l : List (Fl × Fl), (l.map Prod.fst).zip (l.map Prod.snd) = l := fun l => by
          rw [List.zip_map']
          exact List.map_id l
        unfold corrStep computeCorr
        rw [hv, hv]
        simp only
        rw [hz, hz, hl.any_eq, hfn f h _ _ hl]
      rw [e]

theorem corrLoop_runs {u : CorrUse} {rows : List (Fin p → Fl)} : ∀ (l : List (Fin p × Fin p)) (c₀ : SqMat Fl p),
    (∀ e ∈ l, ∃ v, IsEntry f u rows e.1 e.2 v) → ∃ c, l.foldlM (corrStep f u rows) c₀ = .ok c
  | [], c₀, _ => ⟨c₀, rfl⟩
  | e :: l, c₀, h => by
    obtain ⟨v, hv⟩ := h e List.mem_cons_self
    have hc := (computeCorr_entry f u rows e.1 e.2 v).mpr hv
    obtain ⟨c, hl⟩ := corrLoop_runs l (setSym c₀ e.1 e.2 v) fun e' he => h e' (List.mem_cons_of_mem _ he)
    refine ⟨c, ?_⟩
    rw [List.foldlM_cons, corrStep, hc]
    exact hl

theorem entry_unique {u : CorrUse} {rows : List (Fin p → Fl)} {i j : Fin p} {v v' : Fl} (h : IsEntry f u rows i j v)
    (h' : IsEntry f u rows i j v') : v = v' := by
  by_cases hc : (∀ z ∈ sample u rows i j i, z.isFin) ∧ ∀ z ∈ sample u rows i j j, z.isFin
  · exact Except.ok.inj ((h.1 hc).symm.trans (h'.1 hc))
  · rw [h.2 hc, h'.2 hc]

theorem sample_swap (u : CorrUse) (rows : List (Fin p → Fl)) (i j k : Fin p) : sample u rows i j k = sample u rows j i k := by
  unfold sample
  congr 1
  refine List.filter_congr fun r _ => decide_eq_decide.mpr ?_
  cases u <;> simp only [rowUsed]
  exact and_comm

theorem entry_swap {u : CorrUse} {rows : List (Fin p → Fl)} {i j : Fin p} {v : Fl} (hs : ∀ a b, f a b = f b a)
    (h : IsEntry f u rows i j v) : IsEntry f u rows j i v := by
  unfold IsEntry at h ⊢
  rw [sample_swap u rows j i j, sample_swap u rows j i i, hs, and_comm (a := ∀ z ∈ sample u rows i j j, z.isFin)]
  exact h

theorem entry_columns (σ : Equiv.Perm (Fin p)) {u : CorrUse} {rows : List (Fin p → Fl)} {i j : Fin p} {v : Fl} :
    IsEntry f u (rows.map fun r k => r (σ k)) i j v ↔ IsEntry f u rows (σ i) (σ j) v := by
  have h : ∀ k, sample u (rows.map fun r k => r (σ k)) i j k = sample u rows (σ i) (σ j) (σ k) := fun k => by
    unfold sample
    rw [List.filter_map, List.map_map]
    congr 1
    refine List.filter_congr fun r _ => decide_eq_decide.mpr ?_
    cases u <;> simp only [rowUsed]
    exact ⟨fun h k => by simpa using h (σ.symm k), fun h k => h (σ k)⟩
  unfold IsEntry
  rw [h, h]

/-- **C171** The order of the columns does not matter: they carry their rows and columns of the matrix along. -/
theorem corr_columns (hp : ∀ a b, fns.pearson a b = fns.pearson b a) (hk : ∀ a b, fns.kendall a b = fns.kendall b a)
    (hs : ∀ a b, fns.spearman a b = fns.spearman b a) (σ : Equiv.Perm (Fin p)) {rows : List (Fin p → Fl)} {c : SqMat Fl p}
    (h : corr fns (.mat p rows) none method use = .ok ⟨p, c⟩) :
    corr fns (.mat p (rows.map fun r k => r (σ k))) none method use = .ok ⟨p, fun a b => c (σ a) (σ b)⟩ := by
  have hfn : ∀ f, corrFunc fns method = .ok f → ∀ a b, f a b = f b a := fun f h => by
    unfold corrFunc at h
    simp only at h
    split_ifs at h <;> (rw [← Except.ok.inj h]; assumption)
  obtain ⟨u, f, c₁, hu, hf, e₁, hd, hsy, he⟩ := corr_spec fns p rows method use _ h
  obtain rfl : c = c₁ := by simpa using e₁
  have hent : ∀ i j, i ≠ j → IsEntry f u rows i j (c i j) := fun i j hij => by
    rcases lt_or_gt_of_ne hij with hlt | hlt
    · exact he i j hlt
    · rw [hsy]
      exact entry_swap (hfn f hf) (he j i hlt)
  have hent' : ∀ i j, i ≠ j → IsEntry f u (rows.map fun r k => r (σ k)) i j (c (σ i) (σ j)) := fun i j hij =>
    (entry_columns σ).mpr (hent _ _ (σ.injective.ne hij))
  obtain ⟨c', hc'⟩ := corrLoop_runs (f := f) (u := u) (rows := rows.map fun r k => r (σ k)) (corrPairs p) (flIdentity p) fun e he =>
    ⟨_, hent' e.1 e.2 ((mem_corrPairs e.1 e.2).mp he).ne⟩
  have hrun : corr fns (.mat p (rows.map fun r k => r (σ k))) none method use = .ok ⟨p, c'⟩ := by
    unfold corr
    rw [validateUse_ok.mpr hu, hf]
    simp only [bind, Except.bind, hc']
    rfl
  obtain ⟨u', f', c₂, hu', hf', e₂, hd', hsy', he'⟩ := corr_spec fns p _ method use _ hrun
  obtain rfl : c' = c₂ := by simpa using e₂
  obtain rfl : u = u' := Except.ok.inj ((validateUse_ok.mpr hu).symm.trans (validateUse_ok.mpr hu'))
  obtain rfl : f = f' := Except.ok.inj (hf.symm.trans hf')
  rw [hrun]
  have : c' = fun a b => c (σ a) (σ b) := by
    funext a b
    rcases lt_trichotomy a b with hab | rfl | hab
    · exact entry_unique (he' a b hab) (hent' a b hab.ne)
    · rw [hd', hd]
    · rw [hsy' a b, hsy (σ a) (σ b)]
      exact entry_unique (he' b a hab) (hent' b a hab.ne)
  rw [this]

theorem turn_twice (z : Fl) : z.neg.neg = z := by
  cases z with
  | fin x => exact congrArg Fl.fin (neg_neg x)
  | nan => rfl
  | ninf => rfl
  | pinf => rfl

theorem turn_isFin (b : Bool) (z : Fl) : (turn b z).isFin ↔ z.isFin := by cases b <;> cases z <;> rfl

theorem turn_isNan (b : Bool) (z : Fl) : (turn b z).isNan ↔ z.isNan := by cases b <;> cases z <;> rfl

theorem turn_value (hf : SignChanging f) (b b' : Bool) {u v : List ℝ} (hl : u.length = v.length) :
    f ((u.map .fin).map (turn b)) ((v.map .fin).map (turn b')) = (f (u.map .fin) (v.map .fin)).map (turn (b != b')) := by
  have hn : ∀ w : List ℝ, (w.map .fin).map Fl.neg = (w.map fun x => -x).map .fin := fun w => by
    rw [List.map_map, List.map_map]
    rfl
  have e1 : turn true = Fl.neg := rfl
  have e0 : turn false = id := rfl
  have hid : ∀ r : Except PyErr Fl, r.map id = r := fun r => by cases r <;> rfl
  cases b <;> cases b' <;> simp only [e1, e0, List.map_id, bne_self_eq_false, Bool.false_bne, Bool.bne_false, hid]
  · exact (hf u v hl).2
  · exact (hf u v hl).1
  · rw [hn u, (hf _ v (by simpa using hl)).2, ← hn u, (hf u v hl).1]
    cases f (u.map .fin) (v.map .fin) with
    | error e => rfl
    | ok z => exact congrArg Except.ok (turn_twice z)

theorem entry_turn (hf : SignChanging f) (t : Fin p → Bool) {u : CorrUse} {rows : List (Fin p → Fl)} {i j : Fin p} {v : Fl}
    (h : IsEntry f u rows i j v) : IsEntry f u (rows.map fun r k => turn (t k) (r k)) i j (turn (t i != t j) v) := by
  have hs : ∀ k, sample u (rows.map fun r k => turn (t k) (r k)) i j k = (sample u rows i j k).map (turn (t k)) := fun k => by
    unfold sample
    rw [List.filter_map, List.map_map, List.map_map]
    congr 1
    refine List.filter_congr fun r _ => decide_eq_decide.mpr ?_
    cases u <;> simp only [rowUsed, turn_isNan]
  have hfin : ∀ k, (∀ z ∈ (sample u rows i j k).map (turn (t k)), z.isFin) ↔ ∀ z ∈ sample u rows i j k, z.isFin := fun k => by
    simp only [List.forall_mem_map, turn_isFin]
  have hlen : ∀ k, (sample u rows i j k).length = (rows.filter fun r => decide (rowUsed u i j r)).length := fun k => List.length_map _
  unfold IsEntry
  rw [hs, hs, hfin, hfin]
  refine ⟨fun hc => ?_, fun hc => ?_⟩
  · obtain ⟨a, ha⟩ := finite_list _ hc.1
    obtain ⟨b, hb⟩ := finite_list _ hc.2
    have hab : a.length = b.length := by
      have h1 := congrArg List.length ha
      have h2 := congrArg List.length hb
      rw [hlen, List.length_map] at h1 h2
      omega
    have hv := h.1 hc
    rw [ha, hb] at hv ⊢
    rw [turn_value hf _ _ hab, hv]
    rfl
  · rw [h.2 hc]
    cases t i != t j <;> rfl

/-- **C171** Turning columns over changes the sign of their correlations with the others. -/
theorem corr_turned (hp : SignChanging fns.pearson) (hk : SignChanging fns.kendall) (hs : SignChanging fns.spearman) (t : Fin p → Bool)
    {rows : List (Fin p → Fl)} {c : SqMat Fl p} (h : corr fns (.mat p rows) none method use = .ok ⟨p, c⟩) :
    corr fns (.mat p (rows.map fun r k => turn (t k) (r k))) none method use = .ok ⟨p, fun a b => turn (t a != t b) (c a b)⟩ := by
  have hfn : ∀ f, corrFunc fns method = .ok f → SignChanging f := fun f h => by
    unfold corrFunc at h
    simp only at h
    split_ifs at h <;> (rw [← Except.ok.inj h]; assumption)
  obtain ⟨u, f, c₁, hu, hf, e₁, hd, hsy, he⟩ := corr_spec fns p rows method use _ h
  obtain rfl : c = c₁ := by simpa using e₁
  have hent : ∀ i j, i < j → IsEntry f u (rows.map fun r k => turn (t k) (r k)) i j (turn (t i != t j) (c i j)) := fun i j hij =>
    entry_turn (hfn f hf) t (he i j hij)
  obtain ⟨c', hc'⟩ := corrLoop_runs (f := f) (u := u) (rows := rows.map fun r k => turn (t k) (r k)) (corrPairs p) (flIdentity p) fun e he =>
    ⟨_, hent e.1 e.2 ((mem_corrPairs e.1 e.2).mp he)⟩
  have hrun : corr fns (.mat p (rows.map fun r k => turn (t k) (r k))) none method use = .ok ⟨p, c'⟩ := by
    unfold corr
    rw [validateUse_ok.mpr hu, hf]
    simp only [bind, Except.bind, hc']
    rfl
  obtain ⟨u', f', c₂, hu', hf', e₂, hd', hsy', he'⟩ := corr_spec fns p _ method use _ hrun
  obtain rfl : c' = c₂ := by simpa using e₂
  obtain rfl : u = u' := Except.ok.inj ((validateUse_ok.mpr hu).symm.trans (validateUse_ok.mpr hu'))
  obtain rfl : f = f' := Except.ok.inj (hf.symm.trans hf')
  rw [hrun]
  have : c' = fun a b => turn (t a != t b) (c a b) := by
    funext a b
    rcases lt_trichotomy a b with hab | rfl | hab
    · exact entry_unique (he' a b hab) (hent a b hab)
    · rw [hd', hd, bne_self_eq_false]
      rfl
    · rw [hsy' a b, hsy a b, show (t a != t b) = (t b != t a) from Bool.xor_comm _ _]
      exact entry_unique (he' b a hab) (hent b a hab)
  rw [this]

/-! ### Cases -/

/-- The number of concordant pairs. -/
noncomputable def concEx (u v : List Fl) : Except PyErr Fl :=
  .ok (.fin (((u.zip v).map fun a => (u.zip v).countP fun b => decide (a.1 < b.1 ∧ a.2 < b.2)).sum : ℕ))

theorem concEx_scaleFree : ScaleFree StrictMono concEx := fun g h hg hh u v _ => by
  have e : ∀ a b : ℝ, (Fl.fin a < .fin b) ↔ a < b := fun _ _ => Iff.rfl
  unfold concEx
  simp only [List.zip_map, List.map_map, List.countP_map, Function.comp_def, Prod.map, e, hg.lt_iff_lt, hh.lt_iff_lt]

theorem concEx_orderFree : OrderFree concEx := fun l l' hl => by
  have hz : ∀ l : List (Fl × Fl), (l.map Prod.fst).zip (l.map Prod.snd) = l := fun l => by
    rw [List.zip_map']
    exact List.map_id l
  unfold concEx
  rw [hz, hz]
  have e : (fun a : Fl × Fl => l.countP fun b => decide (a.1 < b.1 ∧ a.2 < b.2)) = fun a => l'.countP fun b => decide (a.1 < b.1 ∧ a.2 < b.2) :=
    funext fun a => hl.countP_eq _
  rw [e, (hl.map _).sum_eq]

/-- Three rows, one with a missing value; the columns are doubled and cubed. -/
example := corr_increasing (fns := ⟨concEx, concEx, concEx⟩) (method := "tau") (use := "pairwise.complete") concEx_scaleFree concEx_scaleFree
  (by decide) (g := ![fun x => 2 * x, fun x => x ^ 3]) (fun k => by
    fin_cases k
    · exact fun a b hab => by simpa using hab
    · exact (Odd.strictMono_pow (by decide) : StrictMono fun x : ℝ => x ^ 3)) [![.nan, .fin 1], ![.fin 2, .fin 5], ![.fin 3, .fin 4]]

example := corr_row_order (fns := ⟨concEx, concEx, concEx⟩) (method := "spearman") (use := "complete") concEx_orderFree concEx_orderFree
  concEx_orderFree (List.Perm.swap (![.nan, .fin 1] : Fin 2 → Fl) ![.fin 2, .fin 5] [![.fin 3, .fin 4]])

/-- Vectors of different lengths raise in every scale. -/
example := corr_pair_increasing (fns := ⟨concEx, concEx, concEx⟩) (method := "Rho") (use := "complete") concEx_scaleFree concEx_scaleFree
  (by decide) (g := fun x => x + 1) (h := fun x => x ^ 3) (fun a b hab => by simpa using hab) (Odd.strictMono_pow (by decide))
  [.nan, .fin 2, .fin 3] [.fin 1, .pinf]

example := (corr_units (p := 2) (fns := ⟨concEx, concEx, concEx⟩) (method := "Pearson") (use := "everything")
  (fun g h ⟨a, b, ha, hg⟩ ⟨a', b', ha', hh⟩ u v huv => concEx_scaleFree g h
    (fun x y hxy => by rw [hg, hg]; exact add_lt_add_left (mul_lt_mul_of_pos_left hxy ha) b)
    (fun x y hxy => by rw [hh, hh]; exact add_lt_add_left (mul_lt_mul_of_pos_left hxy ha') b') u v huv) (by decide)).1
  ![fun x => 1.8 * x + 32, fun x => 2 * x + 0] [![.nan, .fin 1], ![.fin 2, .fin 5], ![.fin 3, .fin 4]] fun k => by
    fin_cases k
    · exact ⟨1.8, 32, by norm_num, fun _ => rfl⟩
    · exact ⟨2, 0, by norm_num, fun _ => rfl⟩

theorem concEx_symm (u v : List Fl) : concEx u v = concEx v u := by
  unfold concEx
  rw [← List.zip_swap u v, List.map_map]
  simp only [List.countP_map, Function.comp_def, Prod.fst_swap, Prod.snd_swap, and_comm]

theorem corr_returns (hf : ∀ u v, ∃ z, f u v = .ok z) (rows : List (Fin p → Fl)) {u : CorrUse} (hu : validateUse use = .ok u)
    (hm : corrFunc fns method = .ok f) : ∃ c, corr fns (.mat p rows) none method use = .ok ⟨p, c⟩ := by
  obtain ⟨c, hc⟩ := corrLoop_runs (f := f) (u := u) (rows := rows) (corrPairs p) (flIdentity p) fun e _ => by
    by_cases h : (∀ z ∈ sample u rows e.1 e.2 e.1, z.isFin) ∧ ∀ z ∈ sample u rows e.1 e.2 e.2, z.isFin
    · obtain ⟨z, hz⟩ := hf (sample u rows e.1 e.2 e.1) (sample u rows e.1 e.2 e.2)
      exact ⟨z, fun _ => hz, fun h' => absurd h h'⟩
    · exact ⟨.nan, fun h' => absurd h' h, fun _ => rfl⟩
  refine ⟨c, ?_⟩
  unfold corr
  rw [hu, hm]
  simp only [bind, Except.bind, hc]
  rfl

/-- The columns in the opposite order. -/
example : ∃ c : SqMat Fl 3, corr ⟨concEx, concEx, concEx⟩ (.mat 3 [![.fin 2, .fin 5, .nan], ![.fin 3, .fin 4, .fin 1]]) none "kendall" "complete" = .ok ⟨3, c⟩ ∧
    corr ⟨concEx, concEx, concEx⟩ (.mat 3 ([![.fin 2, .fin 5, .nan], ![.fin 3, .fin 4, .fin 1]].map fun r k => r (Fin.rev k))) none
    "kendall" "complete" = .ok ⟨3, fun a b => c (Fin.rev a) (Fin.rev b)⟩ := by
  obtain ⟨c, hc⟩ := corr_returns (f := concEx) (fns := ⟨concEx, concEx, concEx⟩) (method := "kendall") (use := "complete") (u := .complete)
    (fun _ _ => ⟨_, rfl⟩) [![.fin 2, .fin 5, .nan], ![.fin 3, .fin 4, .fin 1]] (validateUse_ok.mpr (by decide))
    ((corrFunc_names _ _).1 (.inl (by decide)))
  exact ⟨c, hc, corr_columns concEx_symm concEx_symm concEx_symm Fin.revPerm hc⟩

/-- The sign of a difference. -/
noncomputable def signEx (a b : Fl) : ℝ := (if a < b then 1 else 0) - if b < a then 1 else 0

/-- The sum of the products of signs. -/
noncomputable def signsEx (u v : List Fl) : Except PyErr Fl :=
  .ok (.fin ((u.zip v).map fun a => ((u.zip v).map fun b => signEx a.1 b.1 * signEx a.2 b.2).sum).sum)

theorem signEx_neg (x y : ℝ) : signEx (Fl.neg (.fin x)) (Fl.neg (.fin y)) = -signEx (.fin x) (.fin y) := by
  have e : ∀ a b : ℝ, (Fl.fin a < .fin b) ↔ a < b := fun _ _ => Iff.rfl
  have e' : ∀ a : ℝ, Fl.neg (.fin a) = .fin (-a) := fun _ => rfl
  simp only [signEx, e', e, neg_lt_neg_iff, neg_sub]

theorem sum_map_neg' {β : Type} (l : List β) (h : β → ℝ) : (l.map fun b => -h b).sum = -(l.map h).sum := by
  induction l with
  | nil => simp
  | cons a l ih => rw [List.map_cons, List.map_cons, List.sum_cons, List.sum_cons, ih, neg_add]

theorem signsEx_signChanging : SignChanging signsEx := fun u v _ => by
  have e : ∀ r : ℝ, (Except.ok (Fl.fin r) : Except PyErr Fl).map Fl.neg = .ok (.fin (-r)) := fun _ => rfl
  unfold signsEx
  simp only [e, List.zip_map_left, List.zip_map_right, List.map_map, Function.comp_def, Prod.map, id, signEx_neg, neg_mul, mul_neg,
    sum_map_neg', and_self]

/-- The first and the third column are turned over. -/
example : ∃ c : SqMat Fl 3, corr ⟨signsEx, signsEx, signsEx⟩ (.mat 3 [![.fin 2, .fin 5, .nan], ![.fin 3, .fin 4, .fin 1]]) none "rho" "everything" = .ok ⟨3, c⟩ ∧
    corr ⟨signsEx, signsEx, signsEx⟩ (.mat 3 ([![.fin 2, .fin 5, .nan], ![.fin 3, .fin 4, .fin 1]].map fun r k =>
    turn (![true, false, true] k) (r k))) none "rho" "everything" = .ok ⟨3, fun a b => turn (![true, false, true] a != ![true, false, true] b) (c a b)⟩ := by
  obtain ⟨c, hc⟩ := corr_returns (f := signsEx) (fns := ⟨signsEx, signsEx, signsEx⟩) (method := "rho") (use := "everything") (u := .everything)
    (fun _ _ => ⟨_, rfl⟩) [![.fin 2, .fin 5, .nan], ![.fin 3, .fin 4, .fin 1]] (validateUse_ok.mpr (by decide))
    ((corrFunc_names _ _).2.1 (.inr (by decide)))
  exact ⟨c, hc, corr_turned signsEx_signChanging signsEx_signChanging signsEx_signChanging ![true, false, true] hc⟩

end Copulae
