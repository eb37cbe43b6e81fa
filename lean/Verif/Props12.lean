/-
Success of linear algebra (C50) without conditions on the tolerance, and that the hypotheses can be met.
-/
import Verif.LinQuiet
import Verif.LinReal

set_option linter.unusedSectionVars false

namespace Verif

section
variable {K : Type} [Field K] [LinearOrder K] [IsStrictOrderedRing K]

theorem Mat.InvDom.plainWb {a : Mat K} (h : a.InvDom) : a.plainWb := by
  induction a with
  | wb d l r m _ _ im => exact ⟨h.2.1, h.2.2.1, im h.2.2.2.1⟩
  | kron l r il ir => exact ⟨il h.1, ir h.2⟩
  | _ => trivial

theorem Mat.PosDom.plainWb {a : Mat K} (h : a.PosDom) : a.plainWb := by
  induction a with
  | wb d l r m _ _ im => exact ⟨h.2.2.1, h.2.2.2.1, im h.2.2.2.2⟩
  | kron l r il ir => exact ⟨il h.1, ir h.2⟩
  | _ => trivial

theorem Mat.DetFine.plainWb {a : Mat K} (h : a.DetFine) : a.plainWb := by
  induction a with
  | wb d l r m _ _ im => exact ⟨h.1.2.2.1, h.1.2.2.2.1, im h.2.2⟩
  | kron l r il ir => exact ⟨il h.1, ir h.2⟩
  | _ => trivial

/-- C50.  `B.inv` of an invertible matrix returns the inverse, in the class of its argument, whatever the tolerance. -/
theorem C50_inv_always (c : Cfg K) {lin : LinEnv K} (hl : lin.Good) {a : Mat K} (ha : a.Supported) (hw : a.wo true) (hd : a.InvDom) :
    ∃ r, LReturns c lin (fun _ L => L.inv a) r ∧ r.Valid ∧ IsInverse (den a) (den r) ∧ r.kind = a.kind :=
  C50_inv c hl ha hd (C46_inv c lin ha.valid hw hd.plainWb).2

/-- C50.  `B.pd_inv` of a positive-definite matrix returns the inverse. -/
theorem C50_pd_inv_always (c : Cfg K) {lin : LinEnv K} (hl : lin.Good) {a : Mat K} (ha : a.Supported) (hw : a.wo true) (hd : a.PosDom) :
    ∃ r, LReturns c lin (fun _ L => L.pdInv a) r ∧ r.Valid ∧ IsInverse (den a) (den r) :=
  C50_pd_inv c hl ha hd (C46_pd_inv c lin ha.valid hw hd.plainWb).2

/-- C50.  `B.cholesky` returns a factor. -/
theorem C50_cholesky_always (c : Cfg K) {lin : LinEnv K} (hl : lin.Good) {a : Mat K} (ha : a.Supported) (hw : a.wo true) (hd : a.CholFine) :
    ∃ r, LReturns c lin (fun _ L => L.chol a) r ∧ r.Valid ∧ IsFactor (den a) (den r) :=
  C50_cholesky c hl ha hd (C46_cholesky c lin hw).2

/-- C50.  `B.logdet` returns the log-determinant. -/
theorem C50_logdet_always (c : Cfg K) {lin : LinEnv K} (hl : lin.Good) {a : Mat K} (ha : a.Supported) (hw : a.wo true) (hd : a.DetFine) :
    ∃ v, LReturns c lin (fun _ L => L.logdet a) v ∧ IsLogdet lin (den a) v :=
  C50_logdet c hl ha hd (C46_logdet c lin ha.valid hw hd.plainWb).2

/-- C50.  `B.root` returns the symmetric square root. -/
theorem C50_root_always (c : Cfg K) {lin : LinEnv K} (hl : lin.Good) {a : Mat K} (ha : a.Supported) (hw : a.wo true) (hd : a.RootFine) :
    ∃ r, LReturns c lin (fun _ L => L.root a) r ∧ r.Valid ∧ IsRoot (den a) (den r) :=
  C50_root c hl ha hd (C46_root c lin hw).2

/-- C50.  `B.solve` returns the solution (a Zero right-hand side is returned as it is). -/
theorem C50_solve_always (c : Cfg K) {lin : LinEnv K} (hl : lin.Good) {a b : Mat K} (ha : a.Supported) (hb : b.Supported) (hc : BatchCompat a b) (wa : a.wo true) (wb : b.wo false)
    (h2a : 2 ≤ (den a).rank) (h2b : 2 ≤ (den b).rank) (hr : (den a).rows = (den b).rows) (hd : a.SolveFine) (hk : NoKronRhs a b)
    (hl' : a.kind = some .wb → lowProd .wb (classOf c b) = false) :
    ∃ x, LReturns c lin (fun _ L => L.solve a b) x ∧ x.Valid ∧ (IsSolution (den a) (den b) (den x) ∨ b.kind = some .zero ∧ x = b) := by
  refine C50_solve c hl ha hb hc h2a h2b hr hd hk ?_
  by_cases ka : a.kind = some .wb
  · cases a with
    | wb d l r m =>
      refine (C46_solve_woodbury c lin ha.valid wa (Mat.InvDom.plainWb hd) hb.valid ?_ (hl' ka)).2
      cases b <;> first | exact wb | exact absurd wb.1 (by simp)
    | _ => simp [Mat.kind] at ka
  · exact (C46_solve c lin wa ka wb).2

/-- C50.  `B.cholesky_solve` returns the solution. -/
theorem C50_cholesky_solve_always (c : Cfg K) {lin : LinEnv K} (hl : lin.Good) {a b : Mat K} (ha : a.Supported) (hb : b.Supported) (hc : BatchCompat a b) (wb : b.wo false)
    (h2a : 2 ≤ (den a).rank) (h2b : 2 ≤ (den b).rank) (hd : CsFine a b) :
    ∃ x, LReturns c lin (fun _ L => L.cholSolve a b) x ∧ x.Valid ∧ ∃ p, IsMatProd (den a) (tr (den a)) p ∧ IsSolution p (den b) (den x) :=
  C50_cholesky_solve c hl ha hb hc h2a h2b hd (C46_cholesky_solve c lin a wb).2

/-! ### Diagonal matrices -/

/-- A positive diagonal is a positive-definite matrix. -/
theorem isPosDef_diag {d : Tensor K} (h1 : 1 ≤ d.rank) (h0 : 0 ∉ d.sh.tail) (h : ∀ i, InRange d.sh i → 0 < d.get i) : IsPosDef (diagC d) := by
  refine (posDef_iff h0 (MRep.diagC ⟨h1, Fits.refl _⟩)).2 fun β hβ => ⟨Matrix.diagonal_transpose _, fun x hx => ?_⟩
  have hp : ∀ i : Fin d.cols, 0 < d.vat β i := fun i => by
    refine h _ ?_
    have e : d.sh = d.cols :: d.sh.tail := by
      unfold Tensor.rank at h1
      unfold Tensor.cols
      cases e : d.sh with
      | nil => rw [e] at h1; simp at h1
      | cons => rfl
    rw [e, inRange_cons]
    exact ⟨i.2, hβ⟩
  obtain ⟨i, hi⟩ : ∃ i, x i ≠ 0 := by
    by_contra hh
    push Not at hh
    exact hx (funext hh)
  rw [dotProduct]
  refine Finset.sum_pos' (fun j _ => ?_) ⟨i, Finset.mem_univ _, ?_⟩
  · rw [Matrix.mulVec_diagonal]
    nlinarith [hp j, mul_self_nonneg (x j), mul_nonneg (hp j).le (mul_self_nonneg (x j))]
  · rw [Matrix.mulVec_diagonal]
    have : 0 < x i * x i := mul_self_pos.2 hi
    nlinarith [mul_pos (hp i) this]

end

/-! ### The hypotheses are met: real matrices -/

namespace Ex

/-- The code's configuration, over the reals. -/
noncomputable def cfgR : Cfg ℝ := ⟨fun _ => true, 1 / 10^10⟩
noncomputable def vR (l : List ℝ) : Tensor ℝ := ofFn [l.length] fun i => l.getD (i 0) 0
noncomputable def mR (r c : ℕ) (l : List ℝ) : Tensor ℝ := ofFn [c, r] fun i => l.getD (i 1 * c + i 0) 0

theorem mR_at {r c : ℕ} {l : List ℝ} {β : Idx} {i j : ℕ} (hβ : InRange [] β) (hi : i < r) (hj : j < c) : (mR r c l).at' β i j = l.getD (i * c + j) 0 := by
  have : InRange [c, r] (icons j (icons i β)) := by
    rw [inRange_cons]; refine ⟨hj, ?_⟩; rw [inRange_cons]; exact ⟨hi, hβ⟩
  rw [Tensor.at', mR, ofFn_get _ this]
  rfl

theorem inRange0 {l : List ℝ} {i : Idx} (h : InRange (vR l).sh i) : i 0 < l.length := by
  have : InRange [l.length] i := h
  have := this 0
  exact this

theorem vR_get {l : List ℝ} {i : Idx} (h : InRange (vR l).sh i) : (vR l).get i = l.getD (i 0) 0 := ofFn_get _ h

/-- A positive-definite matrix, stored densely. -/
noncomputable def AR : Mat ℝ := .dense (mR 2 2 [4, 2, 2, 5])
/-- A positive diagonal matrix. -/
noncomputable def DR : Mat ℝ := .diag (vR [4, 9])
/-- A Woodbury matrix. -/
noncomputable def PR : Mat ℝ := .wb (vR [4, 9]) (.num (mR 2 1 [1, 2])) (.num (mR 2 1 [1, 2])) (.num (mR 1 1 [4]))
/-- A Kronecker product of the two. -/
noncomputable def KR : Mat ℝ := .kron AR PR
/-- A right-hand side. -/
noncomputable def BR : Mat ℝ := .dense (mR 2 1 [3, 7])

theorem AR_wf (S) : AR.WF S := ⟨le_refl _, Fits.nil _⟩
theorem BR_wf (S) : BR.WF S := ⟨le_refl _, Fits.nil _⟩
theorem PR_wf (S) : PR.WF S :=
  ⟨⟨le_refl _, Fits.nil _⟩, ⟨⟨by decide, Fits.nil _⟩, ⟨by decide, Fits.nil _⟩, ⟨by decide, Fits.nil _⟩⟩, ⟨le_refl _, le_refl _, le_refl _⟩, ⟨rfl, rfl⟩, rfl, rfl⟩
theorem KR_wf (S) : KR.WF S := ⟨⟨AR_wf S, PR_wf S⟩, le_refl _, le_refl _⟩

theorem supportedR {a : Mat ℝ} (h : a.WF []) (hf : a.fit true) (hb : (den a).bt = []) : a.Supported := ⟨⟨_, h⟩, hf, by rw [hb]; simp⟩
theorem AR_supported : AR.Supported := supportedR (AR_wf _) trivial rfl
theorem BR_supported : BR.Supported := supportedR (BR_wf _) trivial rfl
theorem PR_supported : PR.Supported := supportedR (PR_wf _) ⟨trivial, trivial, trivial⟩ rfl
theorem KR_supported : KR.Supported := supportedR (KR_wf _) ⟨rfl, trivial, trivial, trivial, trivial⟩ rfl

theorem dR_pos : ∀ i, InRange (vR [4, 9]).sh i → 0 < (vR [4, 9]).get i := by
  intro i hi
  have h2 : i 0 < 2 := inRange0 hi
  rw [vR_get hi]
  generalize i 0 = k at h2
  interval_cases k <;> norm_num

theorem dR_posDef : IsPosDef (diagC (vR [4, 9])) := isPosDef_diag (le_refl _) (by simp [vR, ofFn]) dR_pos

theorem AR_posDef : IsPosDef (den AR) := by
  have e : ∀ (β : Idx) (i j : ℕ), InRange [] β → i < 2 → j < 2 → (den AR).at' β i j = [4, 2, 2, 5].getD (i * 2 + j) 0 := fun β i j hβ hi hj => mR_at hβ hi hj
  have hr : (den AR).rows = 2 := rfl
  refine ⟨⟨le_refl _, rfl, fun β i j hβ hi hj => ?_⟩, fun β x hβ ⟨k, hk, hx⟩ => ?_⟩
  · rw [hr] at hi hj
    rw [e β i j hβ hi hj, e β j i hβ hj hi]
    interval_cases i <;> interval_cases j <;> rfl
  · rw [hr] at hk ⊢
    simp only [Finset.sum_range_succ, Finset.sum_range_zero]
    rw [e β 0 0 hβ (by omega) (by omega), e β 0 1 hβ (by omega) (by omega), e β 1 0 hβ (by omega) (by omega), e β 1 1 hβ (by omega) (by omega)]
    simp only [List.getD_cons_zero, List.getD_cons_succ, Nat.zero_mul, Nat.zero_add, Nat.one_mul, Nat.reduceAdd]
    interval_cases k
    · nlinarith [mul_self_pos.2 hx, mul_self_nonneg (x 0 + x 1), mul_self_nonneg (x 1), mul_self_nonneg (2 * x 0 + x 1)]
    · nlinarith [mul_self_pos.2 hx, mul_self_nonneg (2 * x 0 + x 1)]

theorem mR1_posDef : IsPosDef (mR 1 1 [4]) := by
  have e : ∀ (β : Idx) (i j : ℕ), InRange [] β → i < 1 → j < 1 → (mR 1 1 [4]).at' β i j = 4 := fun β i j hβ hi hj => by
    rw [mR_at hβ hi hj]; interval_cases i; interval_cases j; rfl
  have hr : (mR 1 1 [4]).rows = 1 := rfl
  refine ⟨⟨le_refl _, rfl, fun β i j hβ hi hj => ?_⟩, fun β x hβ ⟨k, hk, hx⟩ => ?_⟩
  · rw [hr] at hi hj
    rw [e β i j hβ hi hj, e β j i hβ hj hi]
  · rw [hr] at hk ⊢
    simp only [Finset.sum_range_succ, Finset.sum_range_zero]
    rw [e β 0 0 hβ (by omega) (by omega)]
    interval_cases k
    nlinarith [mul_self_pos.2 hx]

theorem PR_posDom : PR.PosDom := ⟨dR_posDef, rfl, rfl, rfl, mR1_posDef⟩
theorem KR_posDom : KR.PosDom := ⟨AR_posDef, PR_posDom⟩
theorem PR_wo : PR.wo true := ⟨rfl, trivial, trivial, trivial⟩
theorem KR_wo : KR.wo true := ⟨trivial, PR_wo⟩

theorem PR_posDef : IsPosDef (den PR) := posDom_den (S := []) (by simp) (PR_wf _) ⟨trivial, trivial, trivial⟩ PR_posDom
theorem posInv {a : Tensor ℝ} (h : IsPosDef a) (hb : a.bt = []) : a.Invertible := h.invertible (by rw [hb]; simp)
theorem PR_invDom : PR.InvDom := ⟨posInv dR_posDef rfl, rfl, rfl, posInv mR1_posDef rfl, posInv PR_posDef rfl⟩
theorem KR_invDom : KR.InvDom := ⟨posInv AR_posDef rfl, PR_invDom⟩
theorem PR_detFine : PR.DetFine := ⟨PR_posDom, dR_pos, posInv mR1_posDef rfl⟩
theorem KR_detFine : KR.DetFine := ⟨AR_posDef, PR_detFine⟩

/- The Kronecker product of a dense and a Woodbury matrix: inverse, Cholesky factor, log-determinant. -/
example : ∃ r, LReturns cfgR realLin (fun _ L => L.inv KR) r ∧ r.Valid ∧ IsInverse (den KR) (den r) ∧ r.kind = KR.kind :=
  C50_inv_always _ realLin_good KR_supported KR_wo KR_invDom
example : ∃ r, LReturns cfgR realLin (fun _ L => L.pdInv KR) r ∧ r.Valid ∧ IsInverse (den KR) (den r) :=
  C50_pd_inv_always _ realLin_good KR_supported KR_wo KR_posDom
example : ∃ r, LReturns cfgR realLin (fun _ L => L.chol KR) r ∧ r.Valid ∧ IsFactor (den KR) (den r) :=
  C50_cholesky_always _ realLin_good KR_supported KR_wo ⟨AR_posDef, PR_posDef⟩
example : ∃ v, LReturns cfgR realLin (fun _ L => L.logdet KR) v ∧ IsLogdet realLin (den KR) v :=
  C50_logdet_always _ realLin_good KR_supported KR_wo KR_detFine
theorem IsPosDef.psd {a : Tensor ℝ} (h : IsPosDef a) : IsPsd a := by
  refine ⟨h.symm, fun β x hβ => ?_⟩
  by_cases hx : ∃ i < a.rows, x i ≠ 0
  · exact (h.pos β x hβ hx).le
  · push Not at hx
    exact (Finset.sum_eq_zero fun i hi => Finset.sum_eq_zero fun j hj => by rw [hx i (Finset.mem_range.1 hi)]; ring).ge
example : ∃ r, LReturns cfgR realLin (fun _ L => L.root KR) r ∧ r.Valid ∧ IsRoot (den KR) (den r) :=
  C50_root_always _ realLin_good KR_supported KR_wo ⟨IsPosDef.psd AR_posDef, IsPosDef.psd PR_posDef⟩
/- Solving with a Woodbury matrix, and with the Cholesky factor of a diagonal one. -/
example : ∃ x, LReturns cfgR realLin (fun _ L => L.solve PR BR) x ∧ x.Valid ∧ (IsSolution (den PR) (den BR) (den x) ∨ BR.kind = some .zero ∧ x = BR) :=
  C50_solve_always _ realLin_good PR_supported BR_supported (Compat.refl _) PR_wo trivial (le_refl _) (le_refl _) rfl PR_invDom (fun _ => rfl) fun _ => rfl
example : ∃ x, LReturns cfgR realLin (fun _ L => L.cholSolve DR BR) x ∧ x.Valid ∧ ∃ p, IsMatProd (den DR) (tr (den DR)) p ∧ IsSolution p (den BR) (den x) :=
  C50_cholesky_solve_always _ realLin_good (supportedR ⟨le_refl _, Fits.nil _⟩ trivial rfl) BR_supported (Compat.refl _) trivial (le_refl _) (le_refl _)
    ⟨posInv dR_posDef rfl, rfl, by simp [BR, Mat.kind], rfl⟩

end Ex

end Verif
