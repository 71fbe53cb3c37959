import Verif.Model.Fit
import Verif.Lemmas.Ranks
import Verif.Props.Ranks
import Verif.Props.ArchParams

/-! Helper lemmas about fitting. -/

namespace Copulae

open Classical

/-- The model of `pobs` on matrices is `pseudo_obs`. -/
theorem pobsMat_eq {n d : ℕ} (data : Fin n → Fin d → ℚ) (ties : String) :
    (pobsMat data ties).map (NDArr.mat n d) = pseudoObs (.mat n d data) ties := by
  cases h : parseTies ties with
  | error e =>
    simp [pobsMat, h, pseudoObs, rankData, bind, Except.bind, Except.map]
  | ok m =>
    rw [pseudoObs_mat data h]
    simp [pobsMat, h, bind, Except.bind, Except.map, pure, Except.pure]

theorem pobsMat_idem {n d : ℕ} {data u : Fin n → Fin d → ℚ} {ties : String}
    (h : pobsMat data ties = .ok u) : pobsMat u ties = .ok u := by
  cases hm : parseTies ties with
  | error e => simp [pobsMat, hm, bind, Except.bind] at h
  | ok m =>
    simp only [pobsMat, hm, bind, Except.bind, pure, Except.pure, Except.ok.injEq] at h ⊢
    subst h
    funext i j
    rw [rankdata_idem m (fun k => data k j) i]

namespace FitCop

/-- Same class, same dimension, same bounds: two states of one object. -/
def SameKind : FitCop → FitCop → Prop
  | .arch F st, .arch F' st' =>
      F = F' ∧ st.dim = st'.dim ∧ st.lower = st'.lower ∧ st.upper = st'.upper
  | .gaussian s, .gaussian s' => s.dim = s'.dim
  | .student _ s, .student _ s' => s.dim = s'.dim
  | _, _ => False

theorem SameKind.refl (c : FitCop) : c.SameKind c := by
  cases c <;> simp [SameKind]

theorem SameKind.symm {a b : FitCop} (h : a.SameKind b) : b.SameKind a := by
  cases a <;> cases b <;> simp_all [SameKind]

theorem SameKind.trans {a b c : FitCop} (h : a.SameKind b) (h' : b.SameKind c) : a.SameKind c := by
  cases a <;> cases b <;> cases c <;> simp_all [SameKind]

theorem SameKind.dim_eq {a b : FitCop} (h : a.SameKind b) : a.dim = b.dim := by
  cases a <;> cases b <;> simp_all [SameKind, FitCop.dim]

/-- A rejected assignment changes nothing. -/
theorem setParams_err {c c' : FitCop} {p : ParamArg} {e : PyErr} (h : c.setParams p = (c', some e)) :
    c' = c := by
  cases c with
  | arch F st =>
    simp only [setParams] at h
    cases hf : toFloat p with
    | error e' =>
      simp only [hf] at h
      split at h <;> exact (Prod.mk.inj h).1.symm
    | ok θ =>
      simp only [hf] at h
      obtain ⟨h1, h2⟩ := Prod.mk.inj h
      rw [← h1, (setParams_effect F st θ).1 (by rw [h2]; simp)]
  | gaussian s =>
    cases p <;> simp [setParams] at h
    exact h.1.symm
  | student df s =>
    simp only [setParams] at h
    cases p with
    | scalar x => exact (Prod.mk.inj h).1.symm
    | student d r => simp at h
    | vec l =>
      simp only at h
      by_cases hl : l.length ≠ 1 + s.dim * (s.dim - 1) / 2
      · rw [if_pos hl] at h
        exact (Prod.mk.inj h).1.symm
      · rw [if_neg hl] at h
        cases l with
        | nil => exact (Prod.mk.inj h).1.symm
        | cons a r =>
          simp only at h
          by_cases h0 : a ≤ Fl.fin 0
          · rw [if_pos h0] at h
            exact (Prod.mk.inj h).1.symm
          · rw [if_neg h0] at h
            simp at h

theorem toFloat_vec {l : List Fl} {θ : Fl} (h : toFloat (.vec l) = .ok θ) : l = [θ] := by
  cases l with
  | nil => simp [toFloat] at h
  | cons a r =>
    cases r with
    | nil => simp [toFloat] at h; rw [h]
    | cons b r => simp [toFloat] at h

/-- An accepted vector is what `params` returns afterwards, and the object is otherwise the same. -/
theorem setParams_vec_ok {c c' : FitCop} {l : List Fl} (h : c.setParams (.vec l) = (c', none)) :
    c'.params = l ∧ c.SameKind c' := by
  cases c with
  | arch F st =>
    simp only [setParams] at h
    cases hf : toFloat (.vec l) with
    | error e' =>
      simp only [hf] at h
      split at h <;> simp at h
    | ok θ =>
      simp only [hf] at h
      obtain ⟨h1, h2⟩ := Prod.mk.inj h
      rw [← h1, (setParams_effect F st θ).2 h2]
      exact ⟨(toFloat_vec hf).symm, rfl, rfl, rfl, rfl⟩
  | gaussian s =>
    simp only [setParams, Prod.mk.injEq, and_true] at h
    subst h
    exact ⟨rfl, rfl⟩
  | student df s =>
    simp only [setParams] at h
    by_cases hl : l.length ≠ 1 + s.dim * (s.dim - 1) / 2
    · rw [if_pos hl] at h
      simp at h
    · rw [if_neg hl] at h
      cases l with
      | nil => simp at h
      | cons a r =>
        simp only at h
        by_cases h0 : a ≤ Fl.fin 0
        · rw [if_pos h0] at h
          simp at h
        · rw [if_neg h0] at h
          simp only [Prod.mk.injEq, and_true] at h
          subst h
          exact ⟨rfl, rfl⟩

/-- Two states of one object react alike to an assignment of a vector. -/
theorem setParams_vec_congr {a b : FitCop} (hab : a.SameKind b) (l : List Fl) :
    (a.setParams (.vec l)).2 = (b.setParams (.vec l)).2 ∧
      ((a.setParams (.vec l)).2 = none → (a.setParams (.vec l)).1 = (b.setParams (.vec l)).1) := by
  cases a with
  | arch F st =>
    cases b with
    | arch F' st' =>
      obtain ⟨rfl, hd, hlo, hup⟩ := hab
      simp only [setParams]
      cases hf : toFloat (.vec l) with
      | error e =>
        simp only
        split <;> simp [hd]
      | ok θ =>
        simp only
        have hst : ∀ x : Fl, ({ st with theta := x } : ArchState) = { st' with theta := x } := by
          intro x
          cases st; cases st'
          simp_all
        have h2 : (F.setParams st θ).2 = (F.setParams st' θ).2 := by
          cases F <;> simp only [Family.setParams, hd] <;> split_ifs <;> rfl
        refine ⟨h2, fun h => ?_⟩
        rw [(setParams_effect F st θ).2 h, (setParams_effect F st' θ).2 (h2 ▸ h), hst]
    | gaussian s => exact hab.elim
    | student df s => exact hab.elim
  | gaussian s =>
    cases b with
    | gaussian s' =>
      have hd : s.dim = s'.dim := hab
      simp [setParams, hd]
    | arch F st => exact hab.elim
    | student df s => exact hab.elim
  | student df s =>
    cases b with
    | student df' s' =>
      have hd : s.dim = s'.dim := hab
      simp only [setParams, hd]
      by_cases hl : l.length ≠ 1 + s'.dim * (s'.dim - 1) / 2
      · simp [if_pos hl]
      · simp only [if_neg hl]
        cases l with
        | nil => simp
        | cons x r =>
          simp only
          by_cases h0 : x ≤ Fl.fin 0
          · simp [if_pos h0]
          · simp [if_neg h0]
    | gaussian s => exact hab.elim
    | arch F st => exact hab.elim

end FitCop

/-- The objective as a function of the parameter: two states of one object give the same value. -/
theorem calcLogLik_congr (env : FitEnv) {n d : ℕ} (data : Fin n → Fin d → ℚ) (scale : Fl) {a b : FitCop}
    (hab : a.SameKind b) (x : List Fl) :
    (calcLogLik env data scale a x).2 = (calcLogLik env data scale b x).2 := by
  unfold calcLogLik
  by_cases hx : ∃ y ∈ x, y.isNan
  · simp [if_pos hx]
  · simp only [if_neg hx]
    obtain ⟨h1, h2⟩ := FitCop.setParams_vec_congr hab x
    rcases ha : a.setParams (.vec x) with ⟨a', _ | ea⟩
    · rcases hb : b.setParams (.vec x) with ⟨b', _ | eb⟩
      · rw [ha, hb] at h2
        have := h2 rfl
        simp only at this
        subst this
        cases logLik env a' data false "average" with
        | ok v => rfl
        | error e => cases e <;> rfl
      · rw [ha, hb] at h1; simp at h1
    · rcases hb : b.setParams (.vec x) with ⟨b', _ | eb⟩
      · rw [ha, hb] at h1; simp at h1
      · rw [ha, hb] at h1
        simp only [Option.some.injEq] at h1
        subst h1
        cases ea <;> rfl

/-- What one evaluation of the objective does. -/
theorem calcLogLik_spec (env : FitEnv) {n d : ℕ} (data : Fin n → Fin d → ℚ) (scale : Fl) (c : FitCop)
    (x : List Fl) :
    (calcLogLik env data scale c x).1 = c ∨
      (c.setParams (.vec x) = ((calcLogLik env data scale c x).1, none) ∧
        ∀ v, (calcLogLik env data scale c x).2 = .ok v → v ≠ .pinf →
          ∃ L, logLik env (calcLogLik env data scale c x).1 data false "average" = .ok L ∧
            v = -L * scale) := by
  unfold calcLogLik
  by_cases hx : ∃ y ∈ x, y.isNan
  · left; simp [if_pos hx]
  · simp only [if_neg hx]
    rcases ha : c.setParams (.vec x) with ⟨c', _ | e⟩
    · right
      simp only
      cases hl : logLik env c' data false "average" with
      | ok L =>
        simp only [Except.ok.injEq]
        exact ⟨trivial, fun v hv _ => ⟨L, hl, hv.symm⟩⟩
      | error e =>
        cases e <;> simp only [true_and] <;> intro v hv hp
        case valueError =>
          exact absurd (Except.ok.inj hv).symm hp
        all_goals cases hv
    · left
      have := FitCop.setParams_err ha
      subst this
      cases e <;> rfl

/-- A value below `+inf` means that the parameter was accepted and the likelihood computed. -/
theorem calcLogLik_value (env : FitEnv) {n d : ℕ} (data : Fin n → Fin d → ℚ) (scale : Fl) (c : FitCop)
    (x : List Fl) {v : Fl} (h : (calcLogLik env data scale c x).2 = .ok v) (hv : v ≠ .pinf) :
    ∃ c' L, c.setParams (.vec x) = (c', none) ∧ logLik env c' data false "average" = .ok L ∧
      v = -L * scale := by
  unfold calcLogLik at h
  by_cases hx : ∃ y ∈ x, y.isNan
  · rw [if_pos hx] at h
    exact absurd (Except.ok.inj h).symm hv
  · simp only [if_neg hx] at h
    rcases ha : c.setParams (.vec x) with ⟨c', _ | e⟩
    · rw [ha] at h
      simp only at h
      cases hl : logLik env c' data false "average" with
      | ok L =>
        rw [hl] at h
        exact ⟨c', L, rfl, hl, (Except.ok.inj h).symm⟩
      | error e =>
        rw [hl] at h
        cases e <;> first | exact absurd (Except.ok.inj h).symm hv | cases h
    · rw [ha] at h
      cases e <;> first | exact absurd (Except.ok.inj h).symm hv | cases h

theorem calcLogLik_sameKind (env : FitEnv) {n d : ℕ} (data : Fin n → Fin d → ℚ) (scale : Fl) (c : FitCop)
    (x : List Fl) : c.SameKind (calcLogLik env data scale c x).1 := by
  rcases calcLogLik_spec env data scale c x with h | ⟨h, -⟩
  · rw [h]; exact FitCop.SameKind.refl c
  · exact (FitCop.setParams_vec_ok h).2

namespace OptTree

/-- The contract of `minimize` used here: a run that reports success returns a point at which it evaluated
the objective, with the value it got there. `seen` are the evaluations made so far. -/
def Honest : List (List Fl × Fl) → OptTree → Prop
  | seen, .done r => r.success = true → (r.x, r.fn) ∈ seen
  | seen, .eval x next => ∀ v, Honest ((x, v) :: seen) (next v)

end OptTree

theorem runOpt_honest (env : FitEnv) {n d : ℕ} (data : Fin n → Fin d → ℚ) (scale : Fl) (c0 : FitCop) :
    ∀ (t : OptTree) (seen : List (List Fl × Fl)) (c c' : FitCop) (r : OptRes), c0.SameKind c →
      t.Honest seen → (∀ p ∈ seen, (calcLogLik env data scale c0 p.1).2 = .ok p.2) →
      runOpt env data scale t c = (c', .ok r) → r.success = true →
      (calcLogLik env data scale c0 r.x).2 = .ok r.fn := by
  intro t
  induction t with
  | done r0 =>
    intro seen c c' r _ hh hs hr hsucc
    simp only [runOpt, Prod.mk.injEq, Except.ok.injEq] at hr
    obtain ⟨-, rfl⟩ := hr
    exact hs _ (hh hsucc)
  | eval x next ih =>
    intro seen c c' r hk hh hs hr hsucc
    simp only [runOpt] at hr
    rcases hcl : calcLogLik env data scale c x with ⟨c1, e | v⟩
    · rw [hcl] at hr; simp at hr
    · rw [hcl] at hr
      simp only at hr
      have hk1 : c.SameKind c1 := by
        have := calcLogLik_sameKind env data scale c x
        rwa [hcl] at this
      refine ih v ((x, v) :: seen) c1 c' r (hk.trans hk1) (hh v) ?_ hr hsucc
      intro p hp
      rcases List.mem_cons.mp hp with rfl | hp
      · simp only
        rw [calcLogLik_congr env data scale hk, hcl]
      · exact hs p hp

/-- Invariants of the optimisation: any property of states of the object which survives accepted
assignments of vectors. -/
theorem runOpt_inv (env : FitEnv) {n d : ℕ} (data : Fin n → Fin d → ℚ) (scale : Fl) (P : FitCop → Prop)
    (hP : ∀ c l c', P c → c.setParams (.vec l) = (c', none) → P c') :
    ∀ (t : OptTree) (c : FitCop), P c → P (runOpt env data scale t c).1 := by
  intro t
  induction t with
  | done r0 => intro c h; exact h
  | eval x next ih =>
    intro c h
    have h1 : P (calcLogLik env data scale c x).1 := by
      rcases calcLogLik_spec env data scale c x with h2 | ⟨h2, -⟩
      · rwa [h2]
      · exact hP _ _ _ h h2
    simp only [runOpt]
    rcases hcl : calcLogLik env data scale c x with ⟨c1, e | v⟩
    · rw [hcl] at h1; exact h1
    · rw [hcl] at h1; exact ih v c1 h1

theorem runOpt_sameKind (env : FitEnv) {n d : ℕ} (data : Fin n → Fin d → ℚ) (scale : Fl) (t : OptTree)
    (c : FitCop) : c.SameKind (runOpt env data scale t c).1 :=
  runOpt_inv env data scale (fun c' => c.SameKind c')
    (fun _ _ _ h h' => h.trans (FitCop.setParams_vec_ok h').2) t c (FitCop.SameKind.refl c)

theorem neg_infSign (a : ℝ) : -Fl.infSign a = Fl.infSign (-a) := by
  unfold Fl.infSign
  rcases lt_trichotomy a 0 with h | h | h
  · rw [if_neg (by linarith), if_pos h, if_pos (by linarith)]; rfl
  · subst h; simp only [lt_irrefl, if_false, neg_zero]; rfl
  · rw [if_pos h, if_neg (by linarith), if_pos (by linarith)]; rfl

theorem neg_neg_mul (L s : Fl) : -(-L * s) = L * s := by
  cases L <;> cases s <;> try rfl
  case fin.fin a b =>
    show Fl.fin (-(-a * b)) = Fl.fin (a * b)
    congr 1; ring
  case pinf.fin b =>
    show -Fl.infSign (-b) = Fl.infSign b
    rw [neg_infSign, neg_neg]
  case ninf.fin b =>
    show -Fl.infSign b = Fl.infSign (-b)
    rw [neg_infSign]
  case fin.pinf a =>
    show -Fl.infSign (-a) = Fl.infSign a
    rw [neg_infSign, neg_neg]
  case fin.ninf a =>
    show -Fl.infSign (-(-a)) = Fl.infSign (-a)
    rw [neg_infSign, neg_neg]

theorem FitCop.setParams_sameKind {c c' : FitCop} {p : ParamArg} (h : c.setParams p = (c', none)) :
    c.SameKind c' := by
  cases p with
  | vec l => exact (FitCop.setParams_vec_ok h).2
  | scalar x =>
    cases c with
    | arch F st =>
      simp only [FitCop.setParams, FitCop.toFloat] at h
      obtain ⟨h1, h2⟩ := Prod.mk.inj h
      rw [← h1, (setParams_effect F st x).2 h2]
      exact ⟨rfl, rfl, rfl, rfl⟩
    | gaussian s =>
      simp only [FitCop.setParams, Prod.mk.injEq, and_true] at h
      subst h; rfl
    | student df s => simp [FitCop.setParams] at h
  | student df rho =>
    cases c with
    | arch F st =>
      simp [FitCop.setParams, FitCop.toFloat] at h
    | gaussian s => simp [FitCop.setParams] at h
    | student df' s =>
      simp only [FitCop.setParams, Prod.mk.injEq, and_true] at h
      subst h; rfl

section Inv

variable (P : FitCop → Prop) (hP : ∀ c p c', P c → c.setParams p = (c', none) → P c')
include hP

theorem storeEstimate_inv (c : FitCop) (icor : ParamArg) (h : P c) : P (storeEstimate c icor).1 := by
  cases c with
  | student df s => exact hP _ (.student df icor.toVec) _ h rfl
  | gaussian s =>
    simp only [storeEstimate]
    by_cases hl : icor.toVec.length = s.rhos.length
    · rw [if_pos hl]; exact hP _ (.vec icor.toVec) _ h rfl
    · rw [if_neg hl]
      split
      · exact hP _ (.scalar _) _ h rfl
      · exact h
  | arch F st =>
    simp only [storeEstimate]
    rcases hs : (FitCop.arch F st).setParams (.scalar (npMean icor.toVec)) with ⟨c', _ | e⟩
    · exact hP _ _ _ h hs
    · rw [FitCop.setParams_err hs]; exact h

theorem estimateCorr_inv (env : FitEnv) {n d : ℕ} (data : Fin n → Fin d → ℚ) (c : FitCop) (typ : CorType)
    (h : P c) : P (estimateCorr env data c typ).1 := by
  unfold estimateCorr
  cases fitCor env c data typ with
  | error e => exact h
  | ok icor =>
    have h1 := storeEstimate_inv P hP c icor h
    simp only
    rcases hs : storeEstimate c icor with ⟨c', e | est⟩
    · rw [hs] at h1; exact h1
    · rw [hs] at h1
      simp only
      cases logLik env c' data true "average" <;> exact h1

theorem claytonRestart_inv (env : FitEnv) {n d : ℕ} (data : Fin n → Fin d → ℚ) (k : ℕ) :
    ∀ (c : FitCop) (start : Fl), P c → P (claytonRestart env data k c start).1 := by
  induction k with
  | zero => intro c start h; exact h
  | succ k ih =>
    intro c start h
    simp only [claytonRestart]
    by_cases h0 : start < Fl.fin 0
    · rw [if_pos h0]
      rcases hs : c.setParams (.scalar (start + .fin (1 / 5))) with ⟨c', _ | e⟩
      · have h1 := hP _ _ _ h hs
        simp only [hs]
        cases logLik env c' data true "average" with
        | error e => exact h1
        | ok v =>
          simp only
          by_cases hv : v.isFin
          · rw [if_pos hv]; exact h1
          · rw [if_neg hv]; exact ih _ _ h1
      · simp only [hs]
        rw [FitCop.setParams_err hs]; exact h
    · rw [if_neg h0]; exact h

theorem initialParams_inv (env : FitEnv) {n d : ℕ} (data : Fin n → Fin d → ℚ) (c : FitCop)
    (x0 : Option ParamArg) (h : P c) : P (initialParams env data c x0).1 := by
  unfold initialParams
  split
  · exact h
  · cases c with
    | gaussian s => exact h
    | student df s => exact h
    | arch F st =>
      simp only
      have h1 := estimateCorr_inv P hP env data _ .itau h
      rcases hs : estimateCorr env data (.arch F st) .itau with ⟨c', e | smry⟩
      · rw [hs] at h1
        cases e <;> exact h1
      · rw [hs] at h1
        simp only
        cases hl : logLik env c' data true "average" with
        | error e => cases e <;> exact h1
        | ok ll =>
          simp only
          by_cases hf : ll.isFin
          · rw [if_pos hf]; exact h1
          · rw [if_neg hf]
            have h2 := claytonRestart_inv P hP env data 5 c' (smry.params.headD .nan) h1
            by_cases hc : F = .clayton ∧ st.dim = 2
            · rw [if_pos hc]
              rcases hr : claytonRestart env data 5 c' (smry.params.headD .nan) with ⟨c'', e | s'⟩
              · rw [hr] at h2
                cases e <;> exact h2
              · rw [hr] at h2
                simp only
                split_ifs <;> exact h2
            · rw [if_neg hc]
              simp only
              split_ifs <;> exact h1

theorem estimateMl_inv (env : FitEnv) (opt : List Fl → OptTree) {n d : ℕ} (data : Fin n → Fin d → ℚ)
    (scale : Fl) (c : FitCop) (x0 : ParamArg) (h : P c) : P (estimateMl env opt data scale c x0).1 := by
  unfold estimateMl
  have h1 := runOpt_inv env data scale P (fun c l c' => hP c (.vec l) c') (opt x0.toVec) c h
  rcases hr : runOpt env data scale (opt x0.toVec) c with ⟨c', e | r⟩
  · rw [hr] at h1; exact h1
  · rw [hr] at h1
    simp only
    by_cases hs : r.success = true
    · rw [if_pos hs]
      rcases hp : c'.setParams (.vec r.x) with ⟨c'', _ | e⟩
      · exact hP _ _ _ h1 hp
      · simp only
        rw [FitCop.setParams_err hp]; exact h1
    · rw [if_neg hs]; exact h1

theorem fitCopula_inv (env : FitEnv) (opt : List Fl → OptTree) {n d : ℕ} (data : Fin n → Fin d → ℚ)
    (c : FitCop) (x0 : Option ParamArg) (method : String) (scale : Fl) (h : P c) :
    P (fitCopula env opt data c x0 method scale).1 := by
  unfold fitCopula
  by_cases h1 : n < c.dim
  · rw [if_pos h1]; exact h
  · rw [if_neg h1]
    by_cases h2 : pyLower method = "ml".toList
    · rw [if_pos h2]
      have h3 := initialParams_inv P hP env data c x0 h
      rcases hi : initialParams env data c x0 with ⟨c', e | a⟩
      · rw [hi] at h3; exact h3
      · rw [hi] at h3; exact estimateMl_inv P hP env opt data scale c' a h3
    · rw [if_neg h2]
      by_cases h3 : pyLower method = "itau".toList
      · rw [if_pos h3]; exact estimateCorr_inv P hP env data c _ h
      · rw [if_neg h3]
        by_cases h4 : pyLower method = "irho".toList
        · rw [if_pos h4]; exact estimateCorr_inv P hP env data c _ h
        · rw [if_neg h4]; exact h

theorem fit_inv (env : FitEnv) (opt : List Fl → OptTree) (o : FitObj) {n d : ℕ} (data : Fin n → Fin d → ℚ)
    (x0 : Option ParamArg) (method ties : String) (toPobs : Bool) (scale : Fl) (h : P o.cop) :
    P (o.fit env opt data x0 method ties toPobs scale).1.cop := by
  unfold FitObj.fit
  cases maybePobs data toPobs ties with
  | error e => exact h
  | ok u =>
    simp only
    by_cases h1 : o.cop.dim ≠ d
    · rw [if_pos h1]; exact h
    · rw [if_neg h1]
      by_cases h2 : ∃ i j, u i j < 0 ∨ 1 < u i j
      · rw [if_pos h2]; exact h
      · rw [if_neg h2]
        have h3 := fitCopula_inv P hP env opt u o.cop x0 method scale h
        rcases hf : fitCopula env opt u o.cop x0 method scale with ⟨c', e | s⟩
        · rw [hf] at h3; exact h3
        · rw [hf] at h3; exact h3

end Inv

end Copulae
