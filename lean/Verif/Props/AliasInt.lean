import Verif.Props.Alias

/-!
C153: arrays of integers hold integers, whatever is assigned. C09: the tolerance of the range of assigned arrays.
-/

namespace Copulae

variable {N : ℕ}

/-- The number is an integer. -/
def Spec.IsInteger (v : Fl) : Prop := ∃ z : ℤ, v = .fin z

/-- The arrays of integers of a state hold integers. -/
def Spec.IntegersHold (s : AState N) : Prop := ∀ a, (s.heap a).dtype = .int → ∀ v ∈ (s.heap a).vals, Spec.IsInteger v

/-- What a step of a program calls an array of integers, or an integer, is one. -/
def Spec.WellTyped : AOp N → Prop
  | .newArray a | .assignCopy _ a => a.dtype = .int → ∀ v ∈ a.vals, Spec.IsInteger v
  | .assignScalar _ dt v => dt = .int → Spec.IsInteger v
  | .setItem _ _ dt v => dt = .int → ∀ x ∈ v.flat, Spec.IsInteger x
  | _ => True

open Spec

theorem castInt_integer {v w : Fl} (h : NpType.int.cast v = .ok w) : IsInteger w := by
  cases v with
  | fin r => exact ⟨_, (Except.ok.inj h).symm⟩
  | nan => cases h
  | ninf => cases h
  | pinf => cases h

theorem mapM_mem {α β : Type} {f : α → Except PyErr β} {P : β → Prop} (hf : ∀ a b, f a = .ok b → P b) :
    ∀ (l : List α) (r : List β), l.mapM f = .ok r → ∀ x ∈ r, P x
  | [], r, h => by
      rw [List.mapM_nil] at h
      obtain rfl := Except.ok.inj h
      simp
  | a :: l, r, h => by
      rw [List.mapM_cons] at h
      simp only [bind, Except.bind, pure, Except.pure] at h
      cases ha : f a with
      | error e => rw [ha] at h; cases h
      | ok b =>
        rw [ha] at h
        cases hl : l.mapM f with
        | error e => rw [hl] at h; cases h
        | ok r' =>
          rw [hl] at h
          obtain rfl := Except.ok.inj h
          intro x hx
          rcases List.mem_cons.mp hx with rfl | hx
          · exact hf _ _ ha
          · exact mapM_mem hf l r' hl x hx

theorem storeCellAs_mem {cast : Fl → Except PyErr Fl} {P : Fl → Prop} (hc : ∀ v w, cast v = .ok w → P w) {l r : List Fl}
    (hl : ∀ x ∈ l, P x) {p : ℕ} {row : List Fl} (h : storeCellAs cast l p row = .ok r) : ∀ x ∈ r, P x := by
  unfold storeCellAs at h
  split at h
  · rename_i v
    cases hv : cast v with
    | error e => simp [hv, bind, Except.bind] at h
    | ok w =>
      simp only [hv, bind, Except.bind, pure, Except.pure, Except.ok.injEq] at h
      subst h
      intro x hx
      rcases List.mem_or_eq_of_mem_set hx with h | rfl
      · exact hl x h
      · exact hc _ _ hv
  · cases h

theorem rowLoopAs_mem {cast : Fl → Except PyErr Fl} {P : Fl → Prop} (hc : ∀ v w, cast v = .ok w → P w) (d : ℕ) (pair : ℕ → ℤ × ℤ) :
    ∀ (rows : List (List Fl)) (i : ℕ) (l : List Fl), (∀ x ∈ l, P x) → ∀ x ∈ (rowLoopAs cast d pair i rows l).1, P x
  | [], _, _, hl => hl
  | v :: vs, i, l, hl => by
      unfold rowLoopAs
      split_ifs with hp
      · exact rowLoopAs_mem hc d pair vs (i + 1) l hl
      · cases hg : getRhoIndex d (pair i).1 (pair i).2 with
        | error e => simpa [hg, bind, Except.bind] using hl
        | ok p =>
          simp only [bind, Except.bind]
          cases hs : storeCellAs cast l p v with
          | error e => simpa using hl
          | ok r => exact rowLoopAs_mem hc d pair vs (i + 1) r (storeCellAs_mem hc hl hs)

theorem ellWrites_mem {cast : Fl → Except PyErr Fl} {P : Fl → Prop} (hc : ∀ v w, cast v = .ok w → P w) (s : Ell) (hl : ∀ x ∈ s.rhos, P x)
    (ix : Ix) (v : PyVal) : ∀ x ∈ (ellWrites cast s ix v).1, P x := by
  unfold ellWrites
  split
  · exact hl
  · rename_i k
    cases hn : npPos s.rhos.length k with
    | error e => simpa [bind, Except.bind] using hl
    | ok p =>
      simp only [bind, Except.bind]
      cases hs : storeCellAs cast s.rhos p v.flat with
      | error e => simpa using hl
      | ok r => exact storeCellAs_mem hc hl hs
  · exact hl
  · split_ifs
    · exact hl
    · exact rowLoopAs_mem hc _ _ _ _ _ hl
  · split_ifs
    · exact hl
    · exact rowLoopAs_mem hc _ _ _ _ _ hl
  · split
    · exact hl
    · split
      · rename_i w _
        split
        · exact hl
        · rename_i w' hw
          intro x hx
          rcases List.mem_or_eq_of_mem_set hx with h | rfl
          · exact hl x h
          · exact hc _ _ hw
      · exact hl
  · exact hl

theorem IntegersHold.alloc {s : AState N} (h : IntegersHold s) {a : NdArr} (ha : a.dtype = .int → ∀ v ∈ a.vals, IsInteger v) :
    IntegersHold (s.alloc a).1 := by
  intro b hb
  show ∀ v ∈ ((Function.update s.heap s.next a) b).vals, IsInteger v
  have hb' : ((Function.update s.heap s.next a) b).dtype = .int := hb
  by_cases e : b = s.next
  · subst e
    rw [Function.update_self] at hb' ⊢
    exact ha hb'
  · rw [Function.update_of_ne e] at hb' ⊢
    exact h b hb'

theorem IntegersHold.put {s : AState N} (h : IntegersHold s) {v : View} {l : List Fl}
    (hl : (s.heap v.addr).dtype = .int → ∀ x ∈ l, IsInteger x) : IntegersHold (s.put v l) := by
  intro b hb
  have hb' : ((Function.update s.heap v.addr ⟨(s.heap v.addr).dtype, (s.heap v.addr).vals.take v.off ++ l⟩) b).dtype = .int := hb
  show ∀ x ∈ ((Function.update s.heap v.addr ⟨(s.heap v.addr).dtype, (s.heap v.addr).vals.take v.off ++ l⟩) b).vals, IsInteger x
  by_cases e : b = v.addr
  · subst e
    rw [Function.update_self] at hb' ⊢
    intro x hx
    rcases List.mem_append.mp hx with hx | hx
    · exact h _ hb' x (List.mem_of_mem_take hx)
    · exact hl hb' x hx
  · rw [Function.update_of_ne e] at hb' ⊢
    exact h b hb'

theorem IntegersHold.read {s : AState N} (h : IntegersHold s) (v : View) (hv : (s.heap v.addr).dtype = .int) :
    ∀ x ∈ s.read v, IsInteger x := fun x hx => h _ hv x (List.mem_of_mem_drop hx)

theorem IntegersHold.bind {s : AState N} (h : IntegersHold s) (c : Fin N) (a : ℕ) : IntegersHold (s.bind c a).1 := by
  unfold AState.bind
  split <;> exact h

theorem setSlice_integers {ext : CovNearest} {s w : Ell} {dt : NpType} {v : PyVal} (hv : dt = .int → ∀ x ∈ v.flat, IsInteger x)
    (h : s.setSlice ext v = (w, .ok ())) (hd : wholeNpType dt v = .int) : ∀ x ∈ w.rhos, IsInteger x := by
  unfold wholeNpType at hd
  split at hd
  · rename_i r c M
    by_cases hrc : r = c
    · subst hrc
      rw [dif_pos rfl] at hd
      split_ifs at hd with hp
      have hall : ∀ i j, IsInteger (M i j) := fun i j => hv hd _ (by
        simp only [PyVal.flat, List.mem_flatten, List.mem_ofFn]
        exact ⟨_, ⟨i, rfl⟩, by simp⟩)
      unfold Ell.setSlice at h
      simp only [nearPsd, dif_pos] at h
      by_cases hs : isSymmetric M 1e-8
      · rw [if_pos hs, if_pos hp] at h
        simp only at h
        split_ifs at h with hk
        · simp at h
        · cases ht : triIndices s.dim 1 "lower" with
          | error e => simp [ht, bind, Except.bind] at h
          | ok t =>
            simp only [ht, bind, Except.bind] at h
            cases hf : fancyRead M t with
            | error e => simp [hf] at h
            | ok l =>
              rw [hf] at h
              simp only [Prod.mk.injEq, and_true] at h
              subst h
              refine mapM_mem (fun c b hb => ?_) _ _ hf
              split_ifs at hb with h2
              rw [← Except.ok.inj hb]
              exact hall _ _
      · rw [if_neg hs] at h
        simp at h
    · rw [dif_neg hrc] at hd
      cases hd
  · cases hd

/-- **C153** An array of integers holds integers after every step of a program, whatever numbers are assigned to its elements through the
caller's name, through a copula or by a fit: fractions are lost, and a NaN is refused. -/
theorem integers_stay (ext : CovNearest) {s : AState N} (h : IntegersHold s) {op : AOp N} (hop : WellTyped op) :
    IntegersHold (s.exec ext op).1 := by
  cases op with
  | newArray a => exact IntegersHold.alloc h hop
  | write k i v =>
    simp only [AState.exec]
    split
    · exact h
    · rename_i a _
      split_ifs
      · cases hc : (s.heap a).dtype.cast v with
        | error e => exact h
        | ok w =>
          intro b hb
          simp only at hb ⊢
          by_cases e : b = a
          · subst e
            rw [Function.update_self] at hb ⊢
            intro x hx
            rcases List.mem_or_eq_of_mem_set hx with h1 | rfl
            · exact h _ hb x h1
            · rw [show (s.heap b).dtype = .int from hb] at hc
              exact castInt_integer hc
          · rw [Function.update_of_ne e] at hb ⊢
            exact h b hb
      · exact h
  | assign c k =>
    simp only [AState.exec]
    split
    · exact h
    · exact IntegersHold.bind h _ _
  | assignCopy c a => exact IntegersHold.bind (IntegersHold.alloc h hop) _ _
  | assignScalar c dt v =>
    simp only [AState.exec]
    split_ifs
    · exact h
    · exact IntegersHold.alloc h fun hd x hx => by rw [(List.mem_replicate.mp hx).2]; exact hop hd
  | setItem c ix dt v =>
    simp only [AState.exec, AState.setItem]
    split_ifs
    · rcases hs : Ell.setSlice ext ⟨(s.cops c).dim, s.read (s.cops c).rhos⟩ v with ⟨w, e | u⟩
      · exact h
      · exact IntegersHold.alloc h fun hd => setSlice_integers hop hs hd
    · have h1 : IntegersHold (s.put (s.cops c).rhos (ellWrites (s.heap (s.cops c).rhos.addr).dtype.cast
          ⟨(s.cops c).dim, s.read (s.cops c).rhos⟩ ix v).1) := IntegersHold.put h fun hd => by
        rw [hd]
        exact ellWrites_mem (fun _ _ => castInt_integer) _ (IntegersHold.read h _ hd) _ _
      split
      · exact h1
      · split
        · exact h1
        · exact IntegersHold.alloc h1 fun hd => by cases hd
    · exact h
  | fitInversion c est =>
    have h1 : IntegersHold (s.alloc ⟨.float, est.map .fin⟩).1 := IntegersHold.alloc h fun hd => by cases hd
    simp only [AState.exec, AState.fitInversion]
    split_ifs
    · exact h1
    · split
      · exact h
      · rename_i l _
        cases hm : (l.mapM fun x => (s.heap (s.cops c).rhos.addr).dtype.cast (.fin x)) with
        | error e => exact h
        | ok l' =>
          refine IntegersHold.put h1 fun hd => ?_
          by_cases e : (s.cops c).rhos.addr = s.next
          · have : ((s.alloc ⟨.float, est.map .fin⟩).1.heap (s.cops c).rhos.addr).dtype = .float := by
              rw [e]
              exact congrArg NdArr.dtype (Function.update_self (f := s.heap) _ _)
            rw [this] at hd
            cases hd
          · have : (s.alloc ⟨.float, est.map .fin⟩).1.heap (s.cops c).rhos.addr = s.heap (s.cops c).rhos.addr := Function.update_of_ne e _ _
            rw [this] at hd
            rw [hd] at hm
            exact mapM_mem (fun _ _ => castInt_integer) _ _ hm
  | fitMl c est =>
    have h1 : IntegersHold (s.alloc ⟨.float, est⟩).1 := IntegersHold.alloc h fun hd => by cases hd
    simp only [AState.exec, AState.fitMl]
    have h2 := IntegersHold.bind h1 c (s.alloc ⟨.float, est⟩).2
    split
    · exact h
    · rename_i s' _ hb
      rw [hb] at h2
      exact h2

/-- **C153** The same of whole programs. -/
theorem integers_stay_run (ext : CovNearest) {s : AState N} (h : IntegersHold s) (ops : List (AOp N)) (hops : ∀ op ∈ ops, WellTyped op) :
    IntegersHold (s.run ext ops) := by
  induction ops generalizing s with
  | nil => exact h
  | cons op l ih => exact ih (integers_stay ext h (hops op (by simp))) fun o ho => hops o (by simp [ho])

theorem AState.new_integers (kinds : Fin N → Bool × ℕ × Fl) : IntegersHold (AState.new kinds) := by
  intro a ha
  simp only [AState.new] at ha
  split_ifs at ha

/-- Finding (**C153** is violated): `copula[:] = M` with a matrix of integers makes the array of the correlations one of integers. -/
theorem integer_matrix_int (ext : CovNearest) (s : AState N) {c : Fin N} :
    (s.exec ext (.setItem c .slice .int (.mat _ _ (flMat (1 : Matrix (Fin (s.cops c).dim) (Fin (s.cops c).dim) ℝ))))).2 = .ok () ∧
    ((s.exec ext (.setItem c .slice .int (.mat _ _ (flMat (1 : Matrix (Fin (s.cops c).dim) (Fin (s.cops c).dim) ℝ))))).1.heap
      ((s.exec ext (.setItem c .slice .int (.mat _ _ (flMat (1 : Matrix (Fin (s.cops c).dim) (Fin (s.cops c).dim) ℝ))))).1.cops
        c).rhos.addr).dtype = .int := by
  obtain ⟨l, hl, -⟩ := readLower_ok (flMat (1 : Matrix (Fin (s.cops c).dim) (Fin (s.cops c).dim) ℝ))
  have hp : isPsd (flMat (1 : Matrix (Fin (s.cops c).dim) (Fin (s.cops c).dim) ℝ)) := (isPsd_of_posSemidef ext _ Matrix.PosSemidef.one).1
  have hsym : isSymmetric (flMat (1 : Matrix (Fin (s.cops c).dim) (Fin (s.cops c).dim) ℝ)) 1e-8 :=
    isSymmetric_self Matrix.PosSemidef.one.1 (by norm_num)
  have hr : rangeOk (.mat _ _ (flMat (1 : Matrix (Fin (s.cops c).dim) (Fin (s.cops c).dim) ℝ))) := by
    intro i j
    have he : 0 ≤ EPS := by unfold EPS; positivity
    simp only [flMat, Fl.fin_le_fin, Matrix.one_apply]
    split_ifs <;> constructor <;> linarith
  have hs : Ell.setSlice ext ⟨(s.cops c).dim, s.read (s.cops c).rhos⟩
      (.mat _ _ (flMat (1 : Matrix (Fin (s.cops c).dim) (Fin (s.cops c).dim) ℝ))) = (⟨(s.cops c).dim, l⟩, .ok ()) := by
    unfold Ell.setSlice
    simp only [nearPsd, dif_pos, if_pos hsym, if_pos hp, ne_eq, not_true_eq_false, if_false, hl]
  have hE : s.exec ext (.setItem c .slice .int (.mat _ _ (flMat (1 : Matrix (Fin (s.cops c).dim) (Fin (s.cops c).dim) ℝ)))) =
      ((s.alloc ⟨.int, l⟩).1.setCop c { s.cops c with rhos := ⟨s.next, 0⟩ }, .ok ()) := by
    simp only [AState.exec, AState.setItem, hr, not_true_eq_false, if_false, Ix.whole, if_true, hs, wholeNpType, dif_pos, if_pos hp]
    rfl
  rw [hE]
  refine ⟨rfl, ?_⟩
  simp [AState.setCop, AState.alloc]

/-- **C153** A fit by inversion with a single estimate gives it to every correlation of a Gaussian copula. -/
theorem fit_single_estimate (ext : CovNearest) (s : AState N) {c : Fin N} (hg : (s.cops c).student = false)
    (hf : (s.heap (s.cops c).rhos.addr).dtype = .float) (ha : (s.cops c).rhos.addr < s.next) (x : ℝ) :
    (s.exec ext (.fitInversion c [x])).2 = .ok () ∧
    ((s.exec ext (.fitInversion c [x])).1.params c).2 = List.replicate (s.read (s.cops c).rhos).length (.fin x) := by
  have h0 : (s.alloc ⟨.float, [Fl.fin x]⟩).1.heap (s.cops c).rhos.addr = s.heap (s.cops c).rhos.addr := heap_alloc ha _
  have hb : broadcastTo (s.read (s.cops c).rhos).length [x] = .ok (List.replicate (s.read (s.cops c).rhos).length x) := by
    unfold broadcastTo
    split_ifs with h
    · rw [← h]; rfl
    · rfl
  have hE : s.exec ext (.fitInversion c [x]) = (((s.alloc ⟨.float, [Fl.fin x]⟩).1.put (s.cops c).rhos
      (List.replicate (s.read (s.cops c).rhos).length (.fin x))).setCop c { s.cops c with smry := some ⟨s.next, 0⟩ }, .ok ()) := by
    simp only [AState.exec, AState.fitInversion, hg, Bool.false_eq_true, if_false, hb, castFloat' hf, List.map_replicate]
    rfl
  rw [hE]
  refine ⟨rfl, ?_⟩
  by_cases ho : (s.cops c).rhos.off ≤ (s.heap (s.cops c).rhos.addr).vals.length
  · simp [AState.params, AState.setCop, AState.read, AState.put, h0, ho]
  · have hz : (s.read (s.cops c).rhos).length = 0 := by simp [AState.read]; omega
    simp only [AState.params, AState.setCop, Function.update_self, AState.read, AState.put, h0] at hz ⊢
    rw [hz]
    simp

/-- **C09** An array with an entry more than 2⁻⁵² outside of `[-1, 1]` is refused for every index, and the copula is unchanged. -/
theorem setItem_badArray (ext : CovNearest) (s : Ell) (ix : Ix) (v : PyVal) (hs : ∀ x, v ≠ .scalar x) {x : ℝ} (hx : .fin x ∈ v.flat)
    (h : 1 + 1 / 2 ^ 52 < |x|) : s.setItem ext ix v = (s, .error .valueError) := by
  have he : (1 : ℝ) + EPS < |x| := by
    unfold EPS
    rw [zpow_neg]
    norm_num at h ⊢
    linarith
  have key : ¬ (Fl.fin (-1 - EPS) ≤ .fin x ∧ Fl.fin x ≤ .fin (1 + EPS)) := by
    rw [Fl.fin_le_fin, Fl.fin_le_fin]
    rintro ⟨h1, h2⟩
    exact absurd (abs_le.mpr ⟨by linarith, h2⟩) (not_le.mpr he)
  have hr : ¬ rangeOk v := by
    cases v with
    | scalar y => exact absurd rfl (hs y)
    | vec l => exact fun h => key (h _ hx)
    | mat r c M =>
      simp only [PyVal.flat, List.mem_flatten, List.mem_ofFn] at hx
      obtain ⟨_, ⟨i, rfl⟩, hx⟩ := hx
      obtain ⟨j, hj⟩ := List.mem_ofFn.mp hx
      intro h
      have := h i j
      rw [hj] at this
      exact key this
  simp only [Ell.setItem, hr, not_false_eq_true, if_true]

/-! ### The hypotheses can be met -/

/-- A Gaussian copula with three variables: `copula.params = 0; copula[0, 1] = 0.9; copula[:] = np.eye(3, dtype=int); copula.fit(...)`. -/
example (ext : CovNearest) := integers_stay_run ext (AState.new_integers (N := 1) fun _ => (false, 3, .fin 1))
  [.assignScalar 0 .int (.fin 0), .setItem 0 (.tuple [.int 0, .int 1]) .float (.scalar (.fin (9 / 10))),
    .setItem 0 .slice .int (.mat 3 3 fun i j => if i = j then .fin 1 else .fin 0), .fitInversion 0 [1 / 2, 1 / 3, 1 / 4]] (by
      intro op hop
      simp only [List.mem_cons, List.not_mem_nil, or_false] at hop
      rcases hop with rfl | rfl | rfl | rfl
      · exact fun _ => ⟨0, by simp⟩
      · exact fun h => by cases h
      · intro _ x hx
        simp only [PyVal.flat, List.mem_flatten, List.mem_ofFn] at hx
        obtain ⟨_, ⟨i, rfl⟩, hx⟩ := hx
        obtain ⟨j, rfl⟩ := List.mem_ofFn.mp hx
        split_ifs
        · exact ⟨1, by simp⟩
        · exact ⟨0, by simp⟩
      · trivial)

example (ext : CovNearest) := fit_single_estimate ext (AState.new (N := 1) fun _ => (false, 3, .fin 1)) (c := 0) rfl rfl
  (by simp [AState.new]) (1 / 2)

example (ext : CovNearest) (s : Ell) := setItem_badArray ext s (.int 0) (.vec [.fin 0, .fin (11 / 10)]) (by simp) (x := 11 / 10)
  (by simp [PyVal.flat]) (by norm_num)

end Copulae
