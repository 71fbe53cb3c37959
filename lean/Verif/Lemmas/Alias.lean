import Verif.Spec.Owned

/-! Helper lemmas for `Props/Alias.lean`. -/

namespace Copulae

open Spec

variable {N : ℕ}

theorem storeCellAs_ok (rhos : List Fl) (p : ℕ) (row : List Fl) : storeCellAs .ok rhos p row = storeCell rhos p row := by
  match row with
  | [] => rfl
  | [_] => rfl
  | _ :: _ :: _ => rfl

theorem rowLoopAs_ok (d : ℕ) (pair : ℕ → ℤ × ℤ) (i : ℕ) (l : List (List Fl)) (rhos : List Fl) :
    rowLoopAs .ok d pair i l rhos = rowLoop d pair i l rhos := by
  induction l generalizing i rhos with
  | nil => rfl
  | cons v vs ih =>
    simp only [rowLoopAs, rowLoop, storeCellAs_ok, ih]
    split_ifs
    · rfl
    · cases (do storeCell rhos (← getRhoIndex d (pair i).1 (pair i).2) v : Except PyErr (List Fl)) <;> simp

/-- `__setitem__` writes into the array and then makes the matrix positive semi-definite. -/
theorem setItem_eq (ext : CovNearest) (s : Ell) (ix : Ix) (v : PyVal) (hr : rangeOk v) :
    s.setItem ext ix v =
      if ix.whole then s.setSlice ext v
      else match ellWrites .ok s ix v with
        | (l, .error e) => ({ s with rhos := l }, .error e)
        | (l, .ok _) => Ell.forcePsd ext { s with rhos := l } := by
  unfold Ell.setItem
  rw [if_neg (not_not.mpr hr)]
  match ix with
  | .slice => rfl
  | .int k =>
    simp only [Ix.whole, ellWrites, storeCellAs_ok, Bool.false_eq_true, if_false]
    cases (do storeCell s.rhos (← npPos s.rhos.length k) v.flat : Except PyErr (List Fl)) <;> rfl
  | .tuple [.slice, .slice] => rfl
  | .tuple [.slice, .int y] =>
    simp only [Ix.whole, ellWrites, rowLoopAs_ok, Bool.false_eq_true, if_false, Ell.setRow]
    split_ifs
    · rfl
    · cases hh : rowLoop s.dim (fun i => ((i : ℤ), y)) 0 (v.rows s.dim) s.rhos with
      | mk l o => cases o <;> rfl
  | .tuple [.int x, .slice] =>
    simp only [Ix.whole, ellWrites, rowLoopAs_ok, Bool.false_eq_true, if_false, Ell.setRow]
    split_ifs
    · rfl
    · cases hh : rowLoop s.dim (fun i => (x, (i : ℤ))) 0 (v.rows s.dim) s.rhos with
      | mk l o => cases o <;> rfl
  | .tuple [.int x, .int y] =>
    simp only [Ix.whole, ellWrites, Bool.false_eq_true, if_false]
    cases getRhoIndex s.dim x y with
    | error e => rfl
    | ok p =>
      match v.flat with
      | [] => rfl
      | [w] => rfl
      | _ :: _ :: _ => rfl
  | .tuple [] => rfl
  | .tuple [.slice] => rfl
  | .tuple [.int _] => rfl
  | .tuple (a :: b :: c :: l) => cases a <;> cases b <;> rfl

theorem setSlice_cases (ext : CovNearest) (s : Ell) (v : PyVal) :
    (∃ e, s.setSlice ext v = (s, .error e)) ∨ ∃ l, s.setSlice ext v = ({ s with rhos := l }, .ok ()) := by
  unfold Ell.setSlice
  cases nearPsd ext v with
  | error e => exact .inl ⟨e, rfl⟩
  | ok r =>
    obtain ⟨k, M⟩ := r
    dsimp only
    split_ifs
    · exact .inl ⟨_, rfl⟩
    · cases (do fancyRead M (← triIndices s.dim 1 "lower") : Except PyErr (List Fl)) with
      | error e => exact .inl ⟨e, rfl⟩
      | ok l => exact .inr ⟨l, rfl⟩

theorem forcePsd_cases (ext : CovNearest) (s : Ell) :
    (∃ e, s.forcePsd ext = (s, .error e)) ∨ ∃ l, s.forcePsd ext = ({ s with rhos := l }, .ok ()) := by
  unfold Ell.forcePsd
  cases s.sigma with
  | error e => exact .inl ⟨e, rfl⟩
  | ok r =>
    obtain ⟨k, M⟩ := r
    dsimp only
    cases nearPsd ext (.mat k k M) with
    | error e => exact .inl ⟨e, rfl⟩
    | ok r =>
      obtain ⟨k', C⟩ := r
      dsimp only
      cases (do fancyRead C (← triIndices s.dim 1 "lower") : Except PyErr (List Fl)) with
      | error e => exact .inl ⟨e, rfl⟩
      | ok l => exact .inr ⟨l, rfl⟩

/-- The heap holds the values, and nothing is shared. -/
structure Owns (s : AState N) (v : VState N) : Prop where
  student : ∀ c, (s.cops c).student = (v.cops c).student
  dim : ∀ c, (s.cops c).dim = (v.cops c).dim
  df : ∀ c, (s.cops c).df = (v.cops c).df
  rhos : ∀ c, s.read (s.cops c).rhos = (v.cops c).rhos
  off : ∀ c, (s.cops c).rhos.off ≤ (s.heap (s.cops c).rhos.addr).vals.length
  float : ∀ c, (s.heap (s.cops c).rhos.addr).dtype = .float
  lt : ∀ c, (s.cops c).rhos.addr < s.next
  inj : ∀ c c', (s.cops c).rhos.addr = (s.cops c').rhos.addr → c = c'
  nodup : s.vars.Nodup
  varsLt : ∀ a ∈ s.vars, a < s.next
  apart : ∀ c, (s.cops c).rhos.addr ∉ s.vars
  arrays : v.arrays = s.vars.map s.heap

theorem heap_alloc {s : AState N} {a : ℕ} (h : a < s.next) (b : NdArr) : (s.alloc b).1.heap a = s.heap a :=
  Function.update_of_ne h.ne _ _

theorem Owns.alloc {s : AState N} {v : VState N} (h : Owns s v) (b : NdArr) : Owns (s.alloc b).1 v where
  student := h.student
  dim := h.dim
  df := h.df
  rhos c := by
    rw [← h.rhos c]
    unfold AState.read
    show List.drop (s.cops c).rhos.off ((s.alloc b).1.heap (s.cops c).rhos.addr).vals = _
    rw [heap_alloc (h.lt c)]
  off c := by
    show (s.cops c).rhos.off ≤ ((s.alloc b).1.heap (s.cops c).rhos.addr).vals.length
    rw [heap_alloc (h.lt c)]
    exact h.off c
  float c := by
    show ((s.alloc b).1.heap (s.cops c).rhos.addr).dtype = _
    rw [heap_alloc (h.lt c)]
    exact h.float c
  lt c := (h.lt c).trans (Nat.lt_succ_self _)
  inj := h.inj
  nodup := h.nodup
  varsLt a ha := (h.varsLt a ha).trans (Nat.lt_succ_self _)
  apart := h.apart
  arrays := by
    rw [h.arrays]
    exact List.map_congr_left fun a ha => (heap_alloc (h.varsLt a ha) b).symm

/-- A copula gets a new array. -/
theorem Owns.rebind {s : AState N} {v : VState N} (h : Owns s v) (c : Fin N) (l : List Fl) (off : ℕ) (ho : off ≤ l.length)
    {e : ECop} {w : VCop} (h1 : e.student = w.student) (h2 : e.dim = w.dim) (h3 : e.df = w.df) (h4 : e.rhos = ⟨s.next, off⟩)
    (h5 : w.rhos = l.drop off) :
    Owns ((s.alloc ⟨.float, l⟩).1.setCop c e) { v with cops := Function.update v.cops c w } := by
  have h' := h.alloc ⟨.float, l⟩
  have hn : (s.alloc ⟨.float, l⟩).1.heap s.next = ⟨.float, l⟩ := Function.update_self _ _ _
  have key : ∀ c', c' ≠ c → ((s.alloc ⟨.float, l⟩).1.setCop c e).cops c' = s.cops c' :=
    fun c' hc => Function.update_of_ne hc _ _
  have key0 : ((s.alloc ⟨.float, l⟩).1.setCop c e).cops c = e := Function.update_self _ _ _
  have heap : ((s.alloc ⟨.float, l⟩).1.setCop c e).heap = (s.alloc ⟨.float, l⟩).1.heap := rfl
  generalize hS : (s.alloc ⟨.float, l⟩).1.setCop c e = S at *
  have hnext : S.next = s.next + 1 := by rw [← hS]; rfl
  have hvars : S.vars = s.vars := by rw [← hS]; rfl
  constructor
  · intro c'
    by_cases hc : c' = c
    · subst hc; rw [key0]; simp [h1]
    · rw [key c' hc]; simp [hc, h.student]
  · intro c'
    by_cases hc : c' = c
    · subst hc; rw [key0]; simp [h2]
    · rw [key c' hc]; simp [hc, h.dim]
  · intro c'
    by_cases hc : c' = c
    · subst hc; rw [key0]; simp [h3]
    · rw [key c' hc]; simp [hc, h.df]
  · intro c'
    by_cases hc : c' = c
    · subst hc
      rw [key0, h4]
      simp [AState.read, heap, hn, h5]
    · rw [key c' hc]
      have := h'.rhos c'
      simp only [AState.read, heap, Function.update_of_ne hc] at this ⊢
      exact this
  · intro c'
    by_cases hc : c' = c
    · subst hc; rw [key0, heap, h4]; simpa [hn] using ho
    · rw [key c' hc, heap]; exact h'.off c'
  · intro c'
    by_cases hc : c' = c
    · subst hc; rw [key0, heap, h4]; simp [hn]
    · rw [key c' hc, heap]; exact h'.float c'
  · intro c'
    rw [hnext]
    by_cases hc : c' = c
    · subst hc; rw [key0, h4]; simp
    · rw [key c' hc]; exact (h.lt c').trans (Nat.lt_succ_self _)
  · intro c1 c2 e
    by_cases g1 : c1 = c <;> by_cases g2 : c2 = c
    · rw [g1, g2]
    · subst g1
      rw [key0, key c2 g2, h4] at e
      exact absurd e (h.lt c2).ne'
    · subst g2
      rw [key0, key c1 g1, h4] at e
      exact absurd e (h.lt c1).ne
    · rw [key c1 g1, key c2 g2] at e
      exact h.inj _ _ e
  · rw [hvars]; exact h.nodup
  · rw [hvars, hnext]; exact fun a ha => (h.varsLt a ha).trans (Nat.lt_succ_self _)
  · intro c'
    rw [hvars]
    by_cases hc : c' = c
    · subst hc
      rw [key0, h4]
      exact fun hm => (h.varsLt _ hm).ne rfl
    · rw [key c' hc]; exact h.apart c'
  · rw [hvars, heap]; exact h'.arrays

/-- Writing into the array of a copula. -/
theorem Owns.put {s : AState N} {v : VState N} (h : Owns s v) (c : Fin N) (l : List Fl) :
    Owns (s.put (s.cops c).rhos l) { v with cops := Function.update v.cops c { v.cops c with rhos := l } } := by
  have heap1 : (s.put (s.cops c).rhos l).heap (s.cops c).rhos.addr =
      ⟨(s.heap (s.cops c).rhos.addr).dtype, (s.heap (s.cops c).rhos.addr).vals.take (s.cops c).rhos.off ++ l⟩ := Function.update_self _ _ _
  have heap2 : ∀ a, a ≠ (s.cops c).rhos.addr → (s.put (s.cops c).rhos l).heap a = s.heap a := fun a ha => Function.update_of_ne ha _ _
  have hcops : (s.put (s.cops c).rhos l).cops = s.cops := rfl
  have hne : ∀ c', c' ≠ c → (s.cops c').rhos.addr ≠ (s.cops c).rhos.addr := fun c' hc e => hc (h.inj _ _ e)
  constructor
  · intro c'
    by_cases hc : c' = c
    · subst hc; simp [hcops, h.student]
    · simp [hcops, hc, h.student]
  · intro c'
    by_cases hc : c' = c
    · subst hc; simp [hcops, h.dim]
    · simp [hcops, hc, h.dim]
  · intro c'
    by_cases hc : c' = c
    · subst hc; simp [hcops, h.df]
    · simp [hcops, hc, h.df]
  · intro c'
    rw [hcops]
    by_cases hc : c' = c
    · subst hc
      have hl : ((s.heap (s.cops c').rhos.addr).vals.take (s.cops c').rhos.off).length = (s.cops c').rhos.off := by
        simpa using h.off c'
      simp only [AState.read, heap1, Function.update_self]
      exact List.drop_left' hl
    · have := h.rhos c'
      simp only [AState.read, heap2 _ (hne c' hc), Function.update_of_ne hc] at this ⊢
      exact this
  · intro c'
    rw [hcops]
    by_cases hc : c' = c
    · subst hc; rw [heap1]
      have := h.off c'
      simp only [List.length_append, List.length_take]
      omega
    · rw [heap2 _ (hne c' hc)]; exact h.off c'
  · intro c'
    rw [hcops]
    by_cases hc : c' = c
    · subst hc; rw [heap1]; exact h.float c'
    · rw [heap2 _ (hne c' hc)]; exact h.float c'
  · exact h.lt
  · exact h.inj
  · exact h.nodup
  · exact h.varsLt
  · exact h.apart
  · show v.arrays = s.vars.map (s.put (s.cops c).rhos l).heap
    rw [h.arrays]
    exact List.map_congr_left fun a ha => (heap2 a fun e => h.apart c (e ▸ ha)).symm

/-- The summary of a copula does not matter. -/
theorem Owns.resummarise {s : AState N} {v : VState N} (h : Owns s v) (c : Fin N) {e : ECop} (h1 : e.student = (s.cops c).student)
    (h2 : e.dim = (s.cops c).dim) (h3 : e.df = (s.cops c).df) (h4 : e.rhos = (s.cops c).rhos) : Owns (s.setCop c e) v := by
  have key : ∀ c', ((s.setCop c e).cops c').student = (s.cops c').student ∧ ((s.setCop c e).cops c').dim = (s.cops c').dim ∧
      ((s.setCop c e).cops c').df = (s.cops c').df ∧ ((s.setCop c e).cops c').rhos = (s.cops c').rhos := by
    intro c'
    by_cases hc : c' = c
    · subst hc; simp [AState.setCop, h1, h2, h3, h4]
    · simp [AState.setCop, hc]
  exact
    { student := fun c' => (key c').1.trans (h.student c')
      dim := fun c' => (key c').2.1.trans (h.dim c')
      df := fun c' => (key c').2.2.1.trans (h.df c')
      rhos := fun c' => by rw [(key c').2.2.2]; exact h.rhos c'
      off := fun c' => by rw [(key c').2.2.2]; exact h.off c'
      float := fun c' => by rw [(key c').2.2.2]; exact h.float c'
      lt := fun c' => by rw [(key c').2.2.2]; exact h.lt c'
      inj := fun c1 c2 => by rw [(key c1).2.2.2, (key c2).2.2.2]; exact h.inj c1 c2
      nodup := h.nodup
      varsLt := h.varsLt
      apart := fun c' => by rw [(key c').2.2.2]; exact h.apart c'
      arrays := h.arrays }

end Copulae
