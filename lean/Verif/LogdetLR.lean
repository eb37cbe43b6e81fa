/-
C22 for LowRank matrices: `B.logdet` of a LowRank matrix is the logarithm of the determinant if its factors are numeric arrays; with a Diagonal middle factor (the default) it is not.
-/
import Verif.Props05

set_option linter.unusedSectionVars false

namespace Verif

variable {K : Type} [Field K] [LinearOrder K] [IsStrictOrderedRing K]

/-- **C22.** `B.logdet` of a square LowRank matrix `l m lᵀ` with numeric factors. -/
theorem C22_logdet_lowrank (c : Cfg K) {lin : LinEnv K} (hl : lin.Lawful) {s t : Tensor K} {r : Mat K} {v : Tensor K} (ha : (Mat.lr (.num s) r (.num t)).Valid)
    (hd : s = den r) (ht : IsSymm t) (hr : LReturns c lin (fun _ L => L.logdet (.lr (.num s) r (.num t))) v) (hx : LExact c lin fun _ L => L.logdet (.lr (.num s) r (.num t))) :
    IsLogdet lin (den (.lr (.num s) r (.num t))) v := by
  obtain ⟨m, n, h⟩ := hr.strict hx
  cases m with
  | zero => cases h
  | succ m =>
    have k := c.lok hl n m
    have h : stepLogdet lin (ops c.strict n) (lops c.code lin (ops c.strict n) m) (.lr (.num s) r (.num t)) = .ok v := h
    simp only [stepLogdet, bind_ok_iff, nMul_ok] at h
    obtain ⟨ch, hch, x, hx', _, rfl⟩ := h
    have wa := ha.own
    have o := k.chol wa hch
    have of := o.factor ⟨hd, ht⟩
    have hn : ∃ u, ch = .num u := by
      cases m with
      | zero => cases hch
      | succ m =>
        have hch : stepChol lin (ops c.strict n) (lops c.code lin (ops c.strict n) m) (.lr (.num s) r (.num t)) = .ok ch := hch
        simp only [stepChol, bind_ok_iff] at hch
        obtain ⟨_, _, w, hw, hch⟩ := hch
        cases m with
        | zero => cases hw
        | succ m =>
          have hw : stepChol lin (ops c.strict n) (lops c.code lin (ops c.strict n) m) (.num t) = .ok w := hw
          simp only [stepChol, bind_ok_iff, pure_eq_ok] at hw
          obtain ⟨_, _, rfl⟩ := hw
          cases n with
          | zero => cases hch
          | succ n =>
            have hch : stepMatmul c.strict (ops c.strict n) false false (.num s) (.num _) = .ok ch := hch
            simp only [stepMatmul, bind_ok_iff, pure_eq_ok] at hch
            obtain ⟨u, _, rfl⟩ := hch
            exact ⟨u, rfl⟩
    obtain ⟨u, rfl⟩ := hn
    have q := k.ld o.wf trivial hx'
    generalize hA : den (.lr (.num s) r (.num t)) = A at *
    have gt : Good A.bt A := hA ▸ wa.good (hA ▸ o.rank')
    obtain ⟨A', C, H⟩ := of.mrep (S := A.bt) gt o.rank
    have ec : (den (.num u : Mat K)).cols = A.rows := by rw [← q.square]; exact of.rows
    have fx : Fits A.bt x.sh := by rw [q.shape]; exact C.bt
    refine IsLogdet.of_mrep A' (by rw [zipB_sh, q.shape]; simpa using of.batch) fun β hβ => ?_
    obtain ⟨n1, f1⟩ := q.at C.good hβ (n := A.rows) of.rows
    have hh := H β hβ
    rw [ec] at hh
    change (mxOf A β A.rows A.rows).det ≠ 0 ∧ _ = lin.log |(mxOf A β A.rows A.rows).det|
    rw [← hh, Matrix.det_mul, Matrix.det_transpose]
    refine ⟨mul_ne_zero n1 n1, ?_⟩
    rw [zipB_get (S := A.bt) _ hβ (Fits.nil _) fx, f1, abs_mul, hl.log (abs_pos.2 n1) (abs_pos.2 n1)]
    simp; ring

namespace Ex

/-- A LowRank matrix with numeric factors. -/
def LRn : Mat ℚ := .lr (.num (m 2 2 [4, 0, 2, 5])) (.num (m 2 2 [4, 0, 2, 5])) (.num (m 2 2 [1, 0, 0, 1]))
/-- The same matrix with the default middle factor: `LowRank(left)`. -/
def LRd : Mat ℚ := .lr (.num (m 2 2 [4, 0, 2, 5])) (.num (m 2 2 [4, 0, 2, 5])) (.diag (v [1, 1]))

theorem LRn_valid : LRn.Valid := ⟨[], ⟨num_wf _ _ _ _, num_wf _ _ _ _, num_wf _ _ _ _⟩, ⟨le_refl _, le_refl _, le_refl _⟩, rfl, rfl⟩
theorem LRd_valid : LRd.Valid := ⟨[], ⟨num_wf _ _ _ _, num_wf _ _ _ _, ⟨by decide, Fits.nil _⟩⟩, ⟨le_refl _, le_refl _, le_refl _⟩, rfl, rfl⟩

end Ex

example : ∃ r, LReturns Ex.cfg Ex.lin (fun _ L => L.logdet Ex.LRn) r ∧ LExact Ex.cfg Ex.lin fun _ L => L.logdet Ex.LRn :=
  Ex.lmeets (LCalls.logdet _) (n := 8) (m := 8) (by decide +kernel)

/-- The values in the result. -/
def Ex.valOf (x : E (Tensor ℚ)) : Option ℚ := match x with | .ok t => some (t.get fun _ => 0) | .error _ => none

/-- **C22, finding.** For a LowRank matrix with the default middle factor `B.logdet` is wrong: the factor `left` of a square `LowRank(left)` is not triangular, and
`B.logdet` takes a Cholesky factor of this non-symmetric factor. The backend of the witness is lawful. -/
theorem C22_logdet_lowrank_refuted : Ex.lin.Lawful ∧ Ex.LRd.Valid ∧ Ex.LRd.CholDom ∧
    ∃ v, LReturns Ex.cfg Ex.lin (fun _ L => L.logdet Ex.LRd) v ∧ LExact Ex.cfg Ex.lin (fun _ L => L.logdet Ex.LRd) ∧ ¬ IsLogdet Ex.lin (den Ex.LRd) v := by
  refine ⟨Ex.lin_lawful, Ex.LRd_valid, ⟨rfl, trivial⟩, ?_⟩
  have hv : Ex.valOf ((lops Ex.cfg.code Ex.lin (ops Ex.cfg.strict 8) 8).logdet Ex.LRd) = some 8 := by decide +kernel
  cases e : (lops Ex.cfg.code Ex.lin (ops Ex.cfg.strict 8) 8).logdet Ex.LRd with
  | error x => rw [e] at hv; cases hv
  | ok v =>
    rw [e] at hv
    have h1 : LReturns Ex.cfg Ex.lin (fun _ L => L.logdet Ex.LRd) v := LReturns.of_strict (n := 8) (m := 8) (LCalls.logdet _) e
    have h2 : LExact Ex.cfg Ex.lin (fun _ L => L.logdet Ex.LRd) := LExact.of_ok (n := 8) (m := 8) (LCalls.logdet _) e
    refine ⟨_, h1, h2, fun hl => ?_⟩
    have := (hl.entries (fun _ => 0) (by simp [den, InRange, Ex.LRd, Tensor.bt, mm, tr, Ex.m, Ex.v, dim])).2
    rw [Option.some.inj hv] at this
    have hd : (mxOf (den Ex.LRd) (fun _ => 0) (den Ex.LRd).rows (den Ex.LRd).rows).det = 400 := by decide +kernel
    rw [hd] at this
    revert this
    decide +kernel

end Verif
