/-
Properties C19-C26: linear algebra.
`lin : LinEnv K` is the numeric backend; `lin.Lawful` (`LinSpec.lean`) is what is assumed of it.
Every theorem is followed by a concrete case that meets its hypotheses (`Ex.lin_lawful`: the backend of the examples is lawful).
-/
import Verif.ExLin

set_option linter.unusedSectionVars false

namespace Verif

variable {K : Type} [Field K] [LinearOrder K] [IsStrictOrderedRing K]

/-! ### C19: inverses -/

/-- `B.inv(a)` returns a two-sided inverse, of the same type as `a`; in particular a Woodbury matrix for a Woodbury matrix. -/
theorem C19_inv (c : Cfg K) {lin : LinEnv K} (hl : lin.Lawful) {a r : Mat K} (ha : a.Valid)
    (hr : LReturns c lin (fun _ L => L.inv a) r) (hx : LExact c lin fun _ L => L.inv a) :
    r.Valid ∧ IsInverse (den a) (den r) ∧ r.kind = a.kind := by
  obtain ⟨m, n, h⟩ := hr.strict hx
  obtain ⟨o, k⟩ := (c.lok hl n m).inv ha.own h
  exact ⟨⟨_, o.wf⟩, o.inv, k⟩

example : ∃ r, LReturns Ex.cfg Ex.lin (fun _ L => L.inv Ex.A2) r ∧ LExact Ex.cfg Ex.lin fun _ L => L.inv Ex.A2 :=
  Ex.lmeets (LCalls.inv _) (n := 8) (m := 8) (by decide +kernel)
example : ∃ r, LReturns Ex.cfg Ex.lin (fun _ L => L.inv Ex.P2) r ∧ LExact Ex.cfg Ex.lin fun _ L => L.inv Ex.P2 :=
  Ex.lmeets (LCalls.inv _) (n := 8) (m := 8) (by decide +kernel)
example : ∃ r, LReturns Ex.cfg Ex.lin (fun _ L => L.inv Ex.K4) r ∧ LExact Ex.cfg Ex.lin fun _ L => L.inv Ex.K4 :=
  Ex.lmeets (LCalls.inv _) (n := 8) (m := 8) (by decide +kernel)

/-- `B.schur` of a Woodbury matrix `D + L M Rᵀ` is `M⁻¹ + Rᵀ D⁻¹ L`. -/
theorem C19_schur (c : Cfg K) {lin : LinEnv K} (hl : lin.Lawful) {d : Tensor K} {l r m s : Mat K} (ha : (Mat.wb d l r m).Valid)
    (hr : LReturns c lin (fun B L => schurM B L d l r m) s) (hx : LExact c lin fun B L => schurM B L d l r m) :
    s.Valid ∧ ∃ di mi p q, IsInverse (diagC d) di ∧ IsInverse (den m) mi ∧ IsMatProd (tr (den r)) di p ∧ IsMatProd p (den l) q ∧ IsEltwise (· + ·) mi q (den s) := by
  obtain ⟨k, n, h⟩ := hr.strict hx
  have w := ha.own
  simp only [schurM, bind_ok_iff] at h
  obtain ⟨di, hdi, sec, hsec, mi, hmi, h⟩ := h
  have o1 := ((c.lok hl n k).inv w.wbDiag hdi).1
  have o2 := ((c.lok hl n k).inv w.wbLr.1.2.2 hmi).1
  have wl := w.wbLr.1.1
  have wr := w.wbLr.1.2.1
  obtain ⟨ws, es, _⟩ := schur_ok (c.ok n) w o1 o2 hsec h
  obtain ⟨wsec, c1, c2, e⟩ := matmul3_ok (c.ok n) wr o1.wf wl w.wbLr.2.1.2.1 o1.rank' w.wbLr.2.1.1 hsec
  simp only [trIf_true, trIf_false] at c1 c2 e
  have gr := (wr.good w.wbLr.2.1.2.1).tr
  have gl := wl.good w.wbLr.2.1.1
  refine ⟨⟨_, ws⟩, den di, den mi, _, _, o1.inv, o2.inv, IsMatProd.of_eq gr o1.good' c1 rfl, IsMatProd.of_eq (gr.mm o1.good') gl c2 rfl, IsEltwise.of_eq ?_ es⟩
  have g2 := (gr.mm o1.good').mm gl
  rw [o2.good'.sh, g2.sh]
  have sq := o2.inv.square
  rw [compat_cons, compat_cons]
  refine ⟨.inr (.inr ?_), .inr (.inr ?_), o2.good'.fits.compat g2.fits⟩
  · rw [mm_cols, cols_of_sh o2.inv.shape, ← sq]; exact w.2.2.2.1.1.symm
  · rw [mm_rows, mm_rows, tr_rows, rows_of_sh o2.inv.shape, sq]; exact w.2.2.2.1.2.symm

example : ∃ r, LReturns Ex.cfg Ex.lin (fun B L => schurM B L (Ex.v [1, 1]) (.num (Ex.m 2 1 [1, 2])) (.num (Ex.m 2 1 [1, 3])) (.num (Ex.m 1 1 [1/4]))) r ∧
    LExact Ex.cfg Ex.lin fun B L => schurM B L (Ex.v [1, 1]) (.num (Ex.m 2 1 [1, 2])) (.num (Ex.m 2 1 [1, 3])) (.num (Ex.m 1 1 [1/4])) :=
  Ex.lmeets (LCalls.schur _ _ _ _) (n := 8) (m := 8) (by decide +kernel)

/-! ### C20: inverses of positive-definite matrices -/

/-- `B.pd_inv(a)` returns the inverse, where `a` is symmetric in the way described by `Mat.PdDom`. -/
theorem C20_pd_inv (c : Cfg K) {lin : LinEnv K} (hl : lin.Lawful) {a r : Mat K} (ha : a.Valid) (hd : a.PdDom)
    (hr : LReturns c lin (fun _ L => L.pdInv a) r) (hx : LExact c lin fun _ L => L.pdInv a) : r.Valid ∧ IsInverse (den a) (den r) := by
  obtain ⟨m, n, h⟩ := hr.strict hx
  obtain ⟨o, _⟩ := (c.lok hl n m).pd ha.own hd h
  exact ⟨⟨_, o.wf⟩, o.inv⟩

/-- `B.pd_inv` of a Woodbury matrix is a Woodbury matrix. -/
theorem C20_pd_inv_woodbury (c : Cfg K) {lin : LinEnv K} (hl : lin.Lawful) {d : Tensor K} {l r m x : Mat K} (ha : (Mat.wb d l r m).Valid)
    (hr : LReturns c lin (fun _ L => L.pdInv (.wb d l r m)) x) (hx : LExact c lin fun _ L => L.pdInv (.wb d l r m)) : x.kind = some .wb := by
  obtain ⟨k, n, h⟩ := hr.strict hx
  exact (c.lok hl n k).pw ha.own h

example : Ex.A2.PdDom ∧ ∃ r, LReturns Ex.cfg Ex.lin (fun _ L => L.pdInv Ex.A2) r ∧ LExact Ex.cfg Ex.lin fun _ L => L.pdInv Ex.A2 :=
  ⟨Ex.A2_symm, Ex.lmeets (LCalls.pdInv _) (n := 8) (m := 8) (by decide +kernel)⟩
example : Ex.P2.PdDom ∧ ∃ r, LReturns Ex.cfg Ex.lin (fun _ L => L.pdInv Ex.P2) r ∧ LExact Ex.cfg Ex.lin fun _ L => L.pdInv Ex.P2 :=
  ⟨⟨rfl, rfl, rfl, Ex.isSymm_m (by decide +kernel)⟩, Ex.lmeets (LCalls.pdInv _) (n := 8) (m := 8) (by decide +kernel)⟩
example : Ex.K4.PdDom ∧ ∃ r, LReturns Ex.cfg Ex.lin (fun _ L => L.pdInv Ex.K4) r ∧ LExact Ex.cfg Ex.lin fun _ L => L.pdInv Ex.K4 :=
  ⟨⟨Ex.A2_symm, trivial⟩, Ex.lmeets (LCalls.pdInv _) (n := 8) (m := 8) (by decide +kernel)⟩

/-! ### C21: Cholesky factors -/

/-- `B.cholesky(a)` returns a factor `l` with `l lᵀ = a`, where `a` is symmetric in the way described by `Mat.CholDom`;
it is LowerTriangular for Dense and Woodbury matrices and Diagonal for Diagonal matrices. -/
theorem C21_cholesky (c : Cfg K) {lin : LinEnv K} (hl : lin.Lawful) {a l : Mat K} (ha : a.Valid) (hd : a.CholDom)
    (hr : LReturns c lin (fun _ L => L.chol a) l) (hx : LExact c lin fun _ L => L.chol a) :
    l.Valid ∧ IsFactor (den a) (den l) ∧ (a.kind = some .dense ∨ a.kind = some .wb → l.kind = some .lt) ∧ (a.kind = some .diag → l.kind = some .diag) := by
  obtain ⟨m, n, h⟩ := hr.strict hx
  have o := (c.lok hl n m).chol ha.own h
  exact ⟨⟨_, o.wf⟩, o.factor hd, o.kind.2⟩

example : Ex.A2.CholDom ∧ ∃ r, LReturns Ex.cfg Ex.lin (fun _ L => L.chol Ex.A2) r ∧ LExact Ex.cfg Ex.lin fun _ L => L.chol Ex.A2 :=
  ⟨Ex.A2_symm, Ex.lmeets (LCalls.chol _) (n := 8) (m := 8) (by decide +kernel)⟩
example : Ex.K4.CholDom ∧ ∃ r, LReturns Ex.cfg Ex.lin (fun _ L => L.chol Ex.K4) r ∧ LExact Ex.cfg Ex.lin fun _ L => L.chol Ex.K4 :=
  ⟨⟨Ex.A2_symm, trivial⟩, Ex.lmeets (LCalls.chol _) (n := 8) (m := 8) (by decide +kernel)⟩

/-! ### C22: log-determinants -/

/-- `B.logdet(a)` returns the logarithm of the absolute value of the determinant in every batch element, for the matrices of `Mat.LdDom`. -/
theorem C22_logdet (c : Cfg K) {lin : LinEnv K} (hl : lin.Lawful) {a : Mat K} {v : Tensor K} (ha : a.Valid) (hd : a.LdDom)
    (hr : LReturns c lin (fun _ L => L.logdet a) v) (hx : LExact c lin fun _ L => L.logdet a) : IsLogdet lin (den a) v := by
  obtain ⟨m, n, h⟩ := hr.strict hx
  exact (c.lok hl n m).ld ha.own hd h

/-- Where the determinant is positive it is the logarithm of the determinant. -/
theorem C22_logdet_pos (c : Cfg K) {lin : LinEnv K} (hl : lin.Lawful) {a : Mat K} {v : Tensor K} (ha : a.Valid) (hd : a.LdDom)
    (hr : LReturns c lin (fun _ L => L.logdet a) v) (hx : LExact c lin fun _ L => L.logdet a) {β : Idx} (hβ : InRange (den a).bt β)
    (hp : 0 < (mxOf (den a) β (den a).rows (den a).rows).det) : v.get β = lin.log (mxOf (den a) β (den a).rows (den a).rows).det := by
  rw [((C22_logdet c hl ha hd hr hx).entries β hβ).2, abs_of_pos hp]

example : Ex.A2.LdDom ∧ ∃ r, LReturns Ex.cfg Ex.lin (fun _ L => L.logdet Ex.A2) r ∧ LExact Ex.cfg Ex.lin fun _ L => L.logdet Ex.A2 :=
  ⟨Ex.A2_symm, Ex.lmeets (LCalls.logdet _) (n := 8) (m := 8) (by decide +kernel)⟩
example : Ex.P2.LdDom ∧ ∃ r, LReturns Ex.cfg Ex.lin (fun _ L => L.logdet Ex.P2) r ∧ LExact Ex.cfg Ex.lin fun _ L => L.logdet Ex.P2 :=
  ⟨⟨⟨rfl, rfl, rfl, Ex.isSymm_m (by decide +kernel)⟩, trivial⟩, Ex.lmeets (LCalls.logdet _) (n := 8) (m := 8) (by decide +kernel)⟩
example : Ex.K4.LdDom ∧ ∃ r, LReturns Ex.cfg Ex.lin (fun _ L => L.logdet Ex.K4) r ∧ LExact Ex.cfg Ex.lin fun _ L => L.logdet Ex.K4 :=
  ⟨⟨Ex.A2_symm, trivial⟩, Ex.lmeets (LCalls.logdet _) (n := 8) (m := 8) (by decide +kernel)⟩

/-! ### C23: quadratic forms, ratios, diagonals of products -/

/-- `B.iqf(a, b, c)` denotes `bᵀ a⁻¹ c` (`same` is the test `c is b`). -/
theorem C23_iqf (cf : Cfg K) {lin : LinEnv K} (hl : lin.Lawful) {S : Shp} {same : Bool} {a b c r : Mat K} {ai : Tensor K} (ha : a.WF S) (hb : b.WF S) (hc : c.WF S)
    (h2b : 2 ≤ (den b).rank) (h2c : 2 ≤ (den c).rank) (hd : a.QfDom) (hi : IsInverse (den a) ai) (hs : same = true → c = b)
    (hz : ¬ (b.kind = some .zero ∧ c.kind = some .zero))
    (hr : LReturns cf lin (fun B L => iqfM B L same a b c) r) (hx : LExact cf lin fun B L => iqfM B L same a b c) :
    r.Valid ∧ ∃ p, IsMatProd (tr (den b)) ai p ∧ IsMatProd p (den c) (den r) := by
  obtain ⟨m, n, h⟩ := hr.strict hx
  obtain ⟨w, e1, e2, e⟩ := iqf_ok (cf.ok n) (ops_mmKinds cf.strict n) (cf.lok hl n m) ha hb hc h2b h2c hd hi hs hz h
  have gi : Good S ai := ⟨by rw [rank_of_sh hi.shape]; exact hi.rank, by rw [bt_of_sh hi.shape]; exact ha.fits⟩
  have gb := (hb.good h2b).tr
  refine ⟨⟨_, w⟩, _, IsMatProd.of_eq gb gi ?_ rfl, IsMatProd.of_eq (gb.mm gi) (hc.good h2c) ?_ e⟩
  · rw [rows_of_sh hi.shape]; exact e1
  · rw [mm_cols, cols_of_sh hi.shape, ← hi.square]; exact e2.symm

example : Ex.A2.QfDom ∧ (∃ ai, IsInverse (den Ex.A2) ai) ∧ ∃ r, LReturns Ex.cfg Ex.lin (fun B L => iqfM B L false Ex.A2 Ex.B2 Ex.N2) r ∧ LExact Ex.cfg Ex.lin fun B L => iqfM B L false Ex.A2 Ex.B2 Ex.N2 :=
  ⟨⟨fun h => by simp [Ex.A2, Mat.kind] at h, fun _ => Ex.A2_symm⟩, Ex.exists_inverse ⟨[], Ex.A2_wf []⟩ (n := 8) (k := 8) (by decide +kernel),
    Ex.lmeets (LCalls.iqf _ _ _ _) (n := 8) (m := 8) (by decide +kernel)⟩
example : Ex.P2.QfDom ∧ (∃ ai, IsInverse (den Ex.P2) ai) ∧ ∃ r, LReturns Ex.cfg Ex.lin (fun B L => iqfM B L true Ex.P2 Ex.B2 Ex.B2) r ∧ LExact Ex.cfg Ex.lin fun B L => iqfM B L true Ex.P2 Ex.B2 Ex.B2 :=
  ⟨⟨fun _ => ⟨rfl, rfl, rfl, Ex.isSymm_m (by decide +kernel)⟩, fun h => absurd rfl h⟩, Ex.exists_inverse ⟨[], Ex.P2_wf []⟩ (n := 8) (k := 8) (by decide +kernel),
    Ex.lmeets (LCalls.iqf _ _ _ _) (n := 8) (m := 8) (by decide +kernel)⟩

/-- `B.iqf_diag(a, b, c)` is the diagonal of `bᵀ a⁻¹ c`. -/
theorem C23_iqf_diag (cf : Cfg K) {lin : LinEnv K} (hl : lin.Lawful) {S : Shp} {same : Bool} {a b c : Mat K} {v : Tensor K} {ai : Tensor K} (ha : a.WF S) (hb : b.WF S) (hc : c.WF S)
    (h2b : 2 ≤ (den b).rank) (h2c : 2 ≤ (den c).rank) (hd : a.QfDom) (hi : IsInverse (den a) ai) (hs : same = true → c = b)
    (hz : ¬ (b.kind = some .zero ∧ c.kind = some .zero)) (hrb : (den b).rows = (den a).rows) (hrc : (den c).rows = (den a).rows) (hbc : (den b).cols = (den c).cols)
    (hdb : a.kind = some .wb → b.DiagOk)
    (hr : LReturns cf lin (fun B L => iqfDiagM B L same a b c) v) (hx : LExact cf lin fun B L => iqfDiagM B L same a b c) :
    ∃ p q, IsMatProd (tr (den b)) ai p ∧ IsMatProd p (den c) q ∧ IsDiagonalOf q v := by
  obtain ⟨m, n, h⟩ := hr.strict hx
  have e := iqfDiag_ok (cf.ok n) (ops_mmKinds cf.strict n) (cf.lok hl n m) ha hb hc h2b h2c hd hi hs hz hrb hrc hbc hdb h
  have gi : Good S ai := ⟨by rw [rank_of_sh hi.shape]; exact hi.rank, by rw [bt_of_sh hi.shape]; exact ha.fits⟩
  have gb := (hb.good h2b).tr
  refine ⟨_, _, IsMatProd.of_eq gb gi ?_ rfl, IsMatProd.of_eq (gb.mm gi) (hc.good h2c) ?_ rfl, IsDiagonalOf.of_eq (by simp [Tensor.rank]) e⟩
  · rw [rows_of_sh hi.shape]; exact hrb
  · rw [mm_cols, cols_of_sh hi.shape, ← hi.square]; exact hrc.symm

example : ∃ r, LReturns Ex.cfg Ex.lin (fun B L => iqfDiagM B L true Ex.A2 Ex.N2 Ex.N2) r ∧ LExact Ex.cfg Ex.lin fun B L => iqfDiagM B L true Ex.A2 Ex.N2 Ex.N2 :=
  Ex.lmeets (LCalls.iqfDiag _ _ _ _) (n := 8) (m := 8) (by decide +kernel)
example : ∃ r, LReturns Ex.cfg Ex.lin (fun B L => iqfDiagM B L false Ex.P2 Ex.M Ex.R) r ∧ LExact Ex.cfg Ex.lin fun B L => iqfDiagM B L false Ex.P2 Ex.M Ex.R :=
  Ex.lmeets (LCalls.iqfDiag _ _ _ _) (n := 8) (m := 8) (by decide +kernel)

/-- `B.ratio(a, b)` is the trace of `b⁻¹ a`. -/
theorem C23_ratio (c : Cfg K) {lin : LinEnv K} (hl : lin.Lawful) {a b : Mat K} {v bi : Tensor K} (ha : a.Valid) (hb : b.Valid) (hc : BatchCompat a b)
    (h2 : 2 ≤ (den a).rank) (hs : (den a).rows = (den a).cols) (hab : (den a).rows = (den b).rows)
    (hda : b.kind ≠ some .wb → a.CholDom ∧ a.cholNZ = true) (hdb : b.QfDom) (hi : IsInverse (den b) bi)
    (hr : LReturns c lin (fun B L => ratioM B L a b) v) (hx : LExact c lin fun B L => ratioM B L a b) : IsRatio (den a) bi v := by
  obtain ⟨m, n, h⟩ := hr.strict hx
  obtain ⟨wa, wb⟩ := ha.common hb hc
  exact ratio_ok (c.ok n) (ops_mmKinds c.strict n) (c.lok hl n m) wa wb h2 hs hab hda hdb hi h

example : ∃ r, LReturns Ex.cfg Ex.lin (fun B L => ratioM B L Ex.A2 Ex.A2) r ∧ LExact Ex.cfg Ex.lin fun B L => ratioM B L Ex.A2 Ex.A2 :=
  Ex.lmeets (LCalls.ratio _ _) (n := 8) (m := 8) (by decide +kernel)
example : ∃ r, LReturns Ex.cfg Ex.lin (fun B L => ratioM B L Ex.M Ex.P2) r ∧ LExact Ex.cfg Ex.lin fun B L => ratioM B L Ex.M Ex.P2 :=
  Ex.lmeets (LCalls.ratio _ _) (n := 8) (m := 8) (by decide +kernel)
example : ∃ r, LReturns Ex.cfg Ex.lin (fun B L => ratioM B L Ex.W Ex.P2) r ∧ LExact Ex.cfg Ex.lin fun B L => ratioM B L Ex.W Ex.P2 :=
  Ex.lmeets (LCalls.ratio _ _) (n := 8) (m := 8) (by decide +kernel)

/-- `B.matmul_diag(a, b, tr_a, tr_b)` is the diagonal of the product, when the product is square. -/
theorem C23_matmul_diag (c : Cfg K) {ta tb : Bool} {a b : Mat K} {v : Tensor K} (ha : a.Valid) (hb : b.Valid) (hc : BatchCompat a b)
    (h2a : 2 ≤ (den a).rank) (h2b : 2 ≤ (den b).rank)
    (h1 : (if ta then tr (den a) else den a).cols = (if tb then tr (den b) else den b).rows)
    (h2 : (if ta then tr (den a) else den a).rows = (if tb then tr (den b) else den b).cols)
    (hd1 : a.readsDiag = true → b.DiagOk) (hd2 : b.readsDiag = true → a.DiagOk)
    (hr : Returns c (fun B => matmulDiag B ta tb a b) v) (hx : Exact c fun B => matmulDiag B ta tb a b) :
    ∃ p, IsMatProd (if ta then tr (den a) else den a) (if tb then tr (den b) else den b) p ∧ IsDiagonalOf p v := by
  obtain ⟨n, h⟩ := hr.strict hx
  obtain ⟨wa, wb⟩ := ha.common hb hc
  have e := matmulDiag_ok (c.ok n) (ops_mmKinds c.strict n) wa wb h2a h2b h1 h2 hd1 hd2 h
  exact ⟨_, IsMatProd.of_eq ((wa.good h2a).trIf ta) ((wb.good h2b).trIf tb) h1 rfl, IsDiagonalOf.of_eq (by simp [Tensor.rank]) e⟩

example : ∃ r, Returns Ex.cfg (fun B => matmulDiag B false true Ex.R Ex.W) r ∧ Exact Ex.cfg fun B => matmulDiag B false true Ex.R Ex.W :=
  Ex.meets (Calls.matmulDiag _ _ _ _) (n := 8) (by decide +kernel)

/-! ### C24: solving -/

/-- `B.solve(a, b)` returns a solution; for a Zero right-hand side it returns that right-hand side itself. -/
theorem C24_solve (c : Cfg K) {lin : LinEnv K} (hl : lin.Lawful) {a b x : Mat K} (ha : a.Valid) (hb : b.Valid) (hc : BatchCompat a b)
    (h2a : 2 ≤ (den a).rank) (h2b : 2 ≤ (den b).rank)
    (hr : LReturns c lin (fun _ L => L.solve a b) x) (hx : LExact c lin fun _ L => L.solve a b) :
    x.Valid ∧ (IsSolution (den a) (den b) (den x) ∨ b.kind = some .zero ∧ x = b) := by
  obtain ⟨m, n, h⟩ := hr.strict hx
  obtain ⟨wa, wb⟩ := ha.common hb hc
  have o := (c.lok hl n m).solve wa wb h2a h2b h
  exact ⟨⟨_, o.wf⟩, o.sol.symm⟩

/-- `B.cholesky_solve(l, b)` solves `l lᵀ x = b`. -/
theorem C24_cholesky_solve (c : Cfg K) {lin : LinEnv K} (hl : lin.Lawful) {a b x : Mat K} (ha : a.Valid) (hb : b.Valid) (hc : BatchCompat a b)
    (h2a : 2 ≤ (den a).rank) (h2b : 2 ≤ (den b).rank) (hd : CsDom a b)
    (hr : LReturns c lin (fun _ L => L.cholSolve a b) x) (hx : LExact c lin fun _ L => L.cholSolve a b) :
    x.Valid ∧ ∃ p, IsMatProd (den a) (tr (den a)) p ∧ IsSolution p (den b) (den x) := by
  obtain ⟨m, n, h⟩ := hr.strict hx
  obtain ⟨wa, wb⟩ := ha.common hb hc
  have o := (c.lok hl n m).cs wa wb h2a h2b hd h
  exact ⟨⟨_, o.wf⟩, _, IsMatProd.of_eq (wa.good h2a) (wa.good h2a).tr rfl rfl, o.sol⟩

example : ∃ r, LReturns Ex.cfg Ex.lin (fun _ L => L.solve Ex.F2 Ex.B2) r ∧ LExact Ex.cfg Ex.lin fun _ L => L.solve Ex.F2 Ex.B2 :=
  Ex.lmeets (LCalls.solve _ _) (n := 8) (m := 8) (by decide +kernel)
example : ∃ r, LReturns Ex.cfg Ex.lin (fun _ L => L.solve Ex.P2 Ex.N2) r ∧ LExact Ex.cfg Ex.lin fun _ L => L.solve Ex.P2 Ex.N2 :=
  Ex.lmeets (LCalls.solve _ _) (n := 8) (m := 8) (by decide +kernel)
example : CsDom Ex.F2 Ex.B2 ∧ ∃ r, LReturns Ex.cfg Ex.lin (fun _ L => L.cholSolve Ex.F2 Ex.B2) r ∧ LExact Ex.cfg Ex.lin fun _ L => L.cholSolve Ex.F2 Ex.B2 :=
  ⟨by simp [CsDom, Ex.F2, Ex.B2, Mat.kind], Ex.lmeets (LCalls.cholSolve _ _) (n := 8) (m := 8) (by decide +kernel)⟩

/-- `triangular_solve(a, b, lower_a)` for a LowerTriangular or UpperTriangular `a` and an `AbstractMatrix` `b`, `ops/triangular_solve.py` 10-27:
the flag only decides whether a warning is issued. -/
def triangularSolve (L : LOps K) (_lower : Bool) (a b : Mat K) : E (Mat K) :=
  match a, b with
  | .lt t, b => if b.isAM then L.solve (.lt t) b else .error .notFound
  | .ut t, b => if b.isAM then L.solve (.ut t) b else .error .notFound
  | _, _ => .error .notFound

/-- `triangular_solve` solves with the triangle that the type of `a` says, whatever the flag. -/
theorem C24_triangular_solve (c : Cfg K) {lin : LinEnv K} (hl : lin.Lawful) {lower : Bool} {a b x : Mat K} (ha : a.Valid) (hb : b.Valid) (hc : BatchCompat a b)
    (hr : LReturns c lin (fun _ L => triangularSolve L lower a b) x) (hx : LExact c lin fun _ L => triangularSolve L lower a b) :
    x.Valid ∧ (IsSolution (den a) (den b) (den x) ∨ b.kind = some .zero ∧ x = b) := by
  obtain ⟨m, n, h⟩ := hr.strict hx
  obtain ⟨wa, wb⟩ := ha.common hb hc
  unfold triangularSolve at h
  split at h
  · split_ifs at h with hb'
    have o := (c.lok hl n m).solve wa wb (wa.rank rfl) (wb.rank hb') h
    exact ⟨⟨_, o.wf⟩, o.sol.symm⟩
  · split_ifs at h with hb'
    have o := (c.lok hl n m).solve wa wb (wa.rank rfl) (wb.rank hb') h
    exact ⟨⟨_, o.wf⟩, o.sol.symm⟩
  · cases h

example : ∃ r, LReturns Ex.cfg Ex.lin (fun _ L => triangularSolve L false Ex.F2 Ex.B2) r ∧ LExact Ex.cfg Ex.lin fun _ L => triangularSolve L false Ex.F2 Ex.B2 :=
  Ex.lmeets (fun _ _ _ _ _ _ h => h.solve _ _) (n := 8) (m := 8) (by decide +kernel)

/-! ### C25: square roots -/

/-- `B.root(a)` returns a symmetric square root, where the parts of `a` that are decomposed numerically are positive semi-definite. -/
theorem C25_root (c : Cfg K) {lin : LinEnv K} (hl : lin.Lawful) {a s : Mat K} (ha : a.Valid) (hd : a.RootDom)
    (hr : LReturns c lin (fun _ L => L.root a) s) (hx : LExact c lin fun _ L => L.root a) : s.Valid ∧ IsRoot (den a) (den s) := by
  obtain ⟨m, n, h⟩ := hr.strict hx
  have o := (c.lok hl n m).root ha.own hd h
  exact ⟨⟨_, o.wf⟩, o.root⟩

example : Ex.Q2.RootDom ∧ ∃ r, LReturns Ex.cfg Ex.lin (fun _ L => L.root Ex.Q2) r ∧ LExact Ex.cfg Ex.lin fun _ L => L.root Ex.Q2 :=
  ⟨Ex.Q2_psd, Ex.lmeets (LCalls.root _) (n := 8) (m := 8) (by decide +kernel)⟩
example : (Mat.kron Ex.Q2 (.diag (Ex.v [4, 9]))).RootDom ∧ ∃ r, LReturns Ex.cfg Ex.lin (fun _ L => L.root (.kron Ex.Q2 (.diag (Ex.v [4, 9])))) r ∧
    LExact Ex.cfg Ex.lin fun _ L => L.root (.kron Ex.Q2 (.diag (Ex.v [4, 9]))) :=
  ⟨⟨Ex.Q2_psd, trivial⟩, Ex.lmeets (LCalls.root _) (n := 8) (m := 8) (by decide +kernel)⟩

/-! ### C26: sampling -/

/-- `B.sample(state, a, num)` of anything but a Woodbury matrix is a factor of `a` times the noise that is drawn from `state`;
the new state is the generator's. -/
theorem C26_sample (c : Cfg K) {lin : LinEnv K} (hl : lin.Lawful) {σ : Type} {randn : σ → Shp → σ × Tensor K} (hn : RandnOk randn) {num : ℕ} {st : σ} {a : Mat K} {y : σ × Mat K}
    (ha : a.Valid) (hd : a.CholDom) (hw : a.kind ≠ some .wb)
    (hr : LReturns c lin (fun B L => sampleM B L randn num st a) y) (hx : LExact c lin fun B L => sampleM B L randn num st a) :
    ∃ F, LReturns c lin (fun _ L => L.chol a) F ∧ IsFactor (den a) (den F) ∧ y.2.Valid ∧
      y.1 = (randn st (num :: (den F).cols :: (den a).bt)).1 ∧ IsMatProd (den F) (randn st (num :: (den F).cols :: (den a).bt)).2 (den y.2) := by
  obtain ⟨m, n, h⟩ := hr.strict hx
  obtain ⟨F, hF, oF, e1, w, e2, _⟩ := sample_ok (c.ok n) (c.lok hl n m) randn hn ha.own hd hw h
  have f := oF.factor hd
  have es := hn st (num :: (den F).cols :: (den a).bt)
  refine ⟨F, LReturns.of_strict (LCalls.chol a) (n := n) (m := m) hF, f, ⟨_, w⟩, e1,
    IsMatProd.of_eq (S := (den a).bt) (oF.wf.good oF.rank) ⟨by simp [Tensor.rank, es], by simp only [Tensor.bt, es]; exact Fits.refl _⟩ ?_ e2⟩
  simp only [Tensor.rows, es]; rfl

/-- The covariance: over random states whose generator draws standard noise (mean 0, variance 1, uncorrelated),
the samples have mean zero, uncorrelated columns, and covariance `a` in every batch element. -/
theorem C26_covariance (c : Cfg K) {lin : LinEnv K} (hl : lin.Lawful) {σ Ω : Type} {randn : σ → Shp → σ × Tensor K} (hn : RandnOk randn) {num : ℕ} {a : Mat K}
    (E : (Ω → K) →ₗ[K] K) (st : Ω → σ) (y : Ω → σ × Mat K) (ha : a.Valid) (hd : a.CholDom) (hw : a.kind ≠ some .wb)
    (hr : ∀ ω, LReturns c lin (fun B L => sampleM B L randn num (st ω) a) (y ω)) (hx : ∀ ω, LExact c lin fun B L => sampleM B L randn num (st ω) a)
    (hE : ∀ F, LReturns c lin (fun _ L => L.chol a) F → StdNoise E (den a).bt (den F).cols num fun ω => (randn (st ω) (num :: (den F).cols :: (den a).bt)).2) [Nonempty Ω] :
    HasCov E (den a) num fun ω => den (y ω).2 := by
  obtain ⟨ω0⟩ := (inferInstance : Nonempty Ω)
  have key : ∀ ω, ∃ F, LReturns c lin (fun _ L => L.chol a) F ∧ CholOk (den a).bt a F ∧ den (y ω).2 = mm (den F) (randn (st ω) (num :: (den F).cols :: (den a).bt)).2 := by
    intro ω
    obtain ⟨m, n, h⟩ := (hr ω).strict (hx ω)
    obtain ⟨F, hF, oF, _, _, e2, _⟩ := sample_ok (c.ok n) (c.lok hl n m) randn hn ha.own hd hw h
    exact ⟨F, LReturns.of_strict (LCalls.chol a) (n := n) (m := m) hF, oF, e2⟩
  obtain ⟨F, hF, oF, _⟩ := key ω0
  have e : (fun ω => den (y ω).2) = fun ω => mm (den F) (randn (st ω) (num :: (den F).cols :: (den a).bt)).2 := by
    funext ω
    obtain ⟨F', hF', _, e⟩ := key ω
    rw [e, LReturns.unique (LCalls.chol a) hF' hF]
  rw [e]
  exact factor_cov oF.rank (oF.factor hd) (hE F hF)

/-- Different batch elements of the samples are uncorrelated. -/
theorem C26_batches (c : Cfg K) {lin : LinEnv K} (hl : lin.Lawful) {σ Ω : Type} {randn : σ → Shp → σ × Tensor K} (hn : RandnOk randn) {num : ℕ} {a : Mat K}
    (E : (Ω → K) →ₗ[K] K) (st : Ω → σ) (y : Ω → σ × Mat K) (ha : a.Valid) (hd : a.CholDom) (hw : a.kind ≠ some .wb)
    (hr : ∀ ω, LReturns c lin (fun B L => sampleM B L randn num (st ω) a) (y ω)) (hx : ∀ ω, LExact c lin fun B L => sampleM B L randn num (st ω) a)
    (hE : ∀ F, LReturns c lin (fun _ L => L.chol a) F → StdNoise E (den a).bt (den F).cols num fun ω => (randn (st ω) (num :: (den F).cols :: (den a).bt)).2) [Nonempty Ω]
    {β β' : Idx} {i i' j j' : ℕ} (hβ : InRange (den a).bt β) (hβ' : InRange (den a).bt β') (hne : clip (den a).bt β ≠ clip (den a).bt β')
    (hi : i < (den a).rows) (hi' : i' < (den a).rows) (hj : j < num) (hj' : j' < num) :
    E (fun ω => (den (y ω).2).at' β i j * (den (y ω).2).at' β' i' j') = 0 := by
  obtain ⟨ω0⟩ := (inferInstance : Nonempty Ω)
  have key : ∀ ω, ∃ F, LReturns c lin (fun _ L => L.chol a) F ∧ CholOk (den a).bt a F ∧ den (y ω).2 = mm (den F) (randn (st ω) (num :: (den F).cols :: (den a).bt)).2 := by
    intro ω
    obtain ⟨m, n, h⟩ := (hr ω).strict (hx ω)
    obtain ⟨F, hF, oF, _, _, e2, _⟩ := sample_ok (c.ok n) (c.lok hl n m) randn hn ha.own hd hw h
    exact ⟨F, LReturns.of_strict (LCalls.chol a) (n := n) (m := m) hF, oF, e2⟩
  obtain ⟨F, hF, oF, _⟩ := key ω0
  have e : ∀ ω, den (y ω).2 = mm (den F) (randn (st ω) (num :: (den F).cols :: (den a).bt)).2 := by
    intro ω
    obtain ⟨F', hF', _, e⟩ := key ω
    rw [e, LReturns.unique (LCalls.chol a) hF' hF]
  simp only [e]
  exact factor_batches oF.rank (oF.factor hd) (hE F hF) hβ hβ' hne hi hi' hj hj'

/-- Woodbury matrices: the diagonal and the low-rank part are sampled one after the other and added.
If both draws are standard and uncorrelated with each other, the covariance is the Woodbury matrix. -/
theorem C26_covariance_woodbury (c : Cfg K) {lin : LinEnv K} (hl : lin.Lawful) {σ Ω : Type} {randn : σ → Shp → σ × Tensor K} (hn : RandnOk randn) {num : ℕ} {d : Tensor K} {l r m : Mat K}
    (E : (Ω → K) →ₗ[K] K) (st : Ω → σ) (y : Ω → σ × Mat K) (ha : (Mat.wb d l r m).Valid) (hd : (Mat.lr l r m).CholDom)
    (hr : ∀ ω, LReturns c lin (fun B L => sampleM B L randn num (st ω) (.wb d l r m)) (y ω)) (hx : ∀ ω, LExact c lin fun B L => sampleM B L randn num (st ω) (.wb d l r m))
    (hE : ∀ F G, LReturns c lin (fun _ L => L.chol (.diag d)) F → LReturns c lin (fun _ L => L.chol (.lr l r m)) G →
      StdNoise E d.sh.tail (den F).cols num (fun ω => (randn (st ω) (num :: (den F).cols :: d.sh.tail)).2) ∧
      StdNoise E (den (.lr l r m)).bt (den G).cols num (fun ω => (randn (randn (st ω) (num :: (den F).cols :: d.sh.tail)).1 (num :: (den G).cols :: (den (.lr l r m)).bt)).2) ∧
      Uncorrelated E (den (.wb d l r m)).bt (den F).cols (den G).cols num (fun ω => (randn (st ω) (num :: (den F).cols :: d.sh.tail)).2)
        fun ω => (randn (randn (st ω) (num :: (den F).cols :: d.sh.tail)).1 (num :: (den G).cols :: (den (.lr l r m)).bt)).2) [Nonempty Ω] :
    HasCov E (den (.wb d l r m)) num fun ω => den (y ω).2 := by
  obtain ⟨ω0⟩ := (inferInstance : Nonempty Ω)
  have w := ha.own
  have key : ∀ ω, ∃ F G, LReturns c lin (fun _ L => L.chol (.diag d)) F ∧ LReturns c lin (fun _ L => L.chol (.lr l r m)) G ∧
      CholOk (den (.wb d l r m)).bt (.diag d) F ∧ CholOk (den (.wb d l r m)).bt (.lr l r m) G ∧
      den (y ω).2 = zipB (· + ·) (mm (den F) (randn (st ω) (num :: (den F).cols :: d.sh.tail)).2)
        (mm (den G) (randn (randn (st ω) (num :: (den F).cols :: d.sh.tail)).1 (num :: (den G).cols :: (den (.lr l r m)).bt)).2) := by
    intro ω
    obtain ⟨k, n, h⟩ := (hr ω).strict (hx ω)
    obtain ⟨F, G, s1, hF, hG, oF, oG, rfl, _, _, e⟩ := sampleWb_ok (c.ok n) (c.lok hl n k) randn hn w hd h
    exact ⟨F, G, LReturns.of_strict (LCalls.chol _) (n := n) (m := k) hF, LReturns.of_strict (LCalls.chol _) (n := n) (m := k) hG, oF, oG, e⟩
  obtain ⟨F, G, hF, hG, oF, oG, _⟩ := key ω0
  have e : (fun ω => den (y ω).2) = fun ω => zipB (· + ·) (mm (den F) (randn (st ω) (num :: (den F).cols :: d.sh.tail)).2)
        (mm (den G) (randn (randn (st ω) (num :: (den F).cols :: d.sh.tail)).1 (num :: (den G).cols :: (den (.lr l r m)).bt)).2) := by
    funext ω
    obtain ⟨F', G', hF', hG', _, _, e⟩ := key ω
    rw [e, LReturns.unique (LCalls.chol _) hF' hF, LReturns.unique (LCalls.chol _) hG' hG]
  rw [e, den_wb]
  obtain ⟨h1, h2, h3⟩ := hE F G hF hG
  have eb : (den (.wb d l r m)).bt = bsh (den (.diag d)).bt (den (.lr l r m)).bt := zipB_bt
  refine sum_cov (by simp [den, Tensor.rank]) (w.wbLr.rank rfl) oF.rank oG.rank (oF.factor trivial) (oG.factor hd) w.2.2.2.2.1.symm
    (w.wbDiag.fits.compat w.wbLr.fits) h1 h2 ?_
  rw [← eb]
  exact h3

/-! A generator for the example: eight equally likely outcomes carry three independent signs; every draw takes the next signs. -/

namespace Ex

/-- The state: an outcome and the number of signs used. -/
abbrev St := Fin 8 × ℕ

def sgn (ω : Fin 8) (k : ℕ) : ℚ := if (ω.1 / 2 ^ k) % 2 = 0 then 1 else -1

def randn (st : St) (sh : Shp) : St × Tensor ℚ := ((st.1, st.2 + dim sh 1), ofFn sh fun i => sgn st.1 (st.2 + i 1))

/-- The expectation over the eight outcomes. -/
def mean : (Fin 8 → ℚ) →ₗ[ℚ] ℚ where
  toFun f := (1 / 8) * ∑ ω, f ω
  map_add' f g := by simp [Finset.sum_add_distrib, mul_add]
  map_smul' x f := by simp [← Finset.mul_sum]; ring

theorem randn_at (st : St) {k : ℕ} (β : Idx) {i : ℕ} (hi : i < k) : (randn st [1, k]).2.at' β i 0 = sgn st.1 (st.2 + i) := by
  rw [at0 rfl β]
  have : InRange [1, k] (icons 0 (icons i o)) := by
    rw [inRange_cons]; refine ⟨Nat.zero_lt_one, ?_⟩; rw [inRange_cons]; exact ⟨hi, fun _ => Nat.zero_lt_one⟩
  rw [Tensor.at', randn, ofFn_get _ this]
  rfl

theorem mean_eq (f : Fin 8 → ℚ) : mean f = (1 / 8) * ∑ ω, f ω := rfl

theorem noise (s k : ℕ) (h : s + k ≤ 3) : StdNoise mean [] k 1 fun ω => (randn (ω, s) [1, k]).2 := by
  refine ⟨fun ω => rfl, fun β i j hβ hi hj => ?_, fun β i i' j j' hβ hi hi' hj hj' => ?_, fun β β' i i' j j' _ _ hne => absurd (by rw [clip0, clip0]) hne⟩
  · obtain rfl : j = 0 := by omega
    simp only [randn_at _ β hi, mean_eq]
    have : s + i < 3 := by omega
    generalize s + i = x at *
    interval_cases x <;> decide +kernel
  · obtain rfl : j = 0 := by omega
    obtain rfl : j' = 0 := by omega
    simp only [randn_at _ β hi, randn_at _ β hi', mean_eq, and_true]
    have e : (i = i') = (s + i = s + i') := by simp
    simp only [e]
    have h1 : s + i < 3 := by omega
    have h2 : s + i' < 3 := by omega
    generalize s + i = x at *
    generalize s + i' = x' at *
    interval_cases x <;> interval_cases x' <;> decide +kernel

theorem noise_unc (k k' : ℕ) (h : k + k' ≤ 3) : Uncorrelated mean [] k k' 1 (fun ω => (randn (ω, 0) [1, k]).2) fun ω => (randn (randn (ω, 0) [1, k]).1 [1, k']).2 := by
  intro β i i' j j' hβ hi hi' hj hj'
  obtain rfl : j = 0 := by omega
  obtain rfl : j' = 0 := by omega
  simp only [randn_at _ β hi, randn_at _ β hi', mean_eq]
  show (1 / 8) * ∑ ω, sgn ω (0 + i) * sgn ω (0 + k + i') = (0 : ℚ)
  have h1 : 0 + i < 3 := by omega
  have h2 : 0 + k + i' < 3 := by omega
  have h3 : 0 + i ≠ 0 + k + i' := by omega
  generalize 0 + i = x at *
  generalize 0 + k + i' = x' at *
  interval_cases x <;> interval_cases x' <;> first | exact absurd rfl h3 | decide +kernel

theorem randn_ok : RandnOk randn := fun _ _ => rfl

/-- The number of columns of the factor. -/
def cholCols (a : Mat ℚ) (k : ℕ) : Bool :=
  match (lops cfg.code lin (ops cfg.code 8) 8).chol a with
  | .ok F => (den F).cols = k
  | .error _ => false

theorem cols_of_chol {a F : Mat ℚ} {k : ℕ} (h : cholCols a k = true) (hF : LReturns cfg lin (fun _ L => L.chol a) F) : (den F).cols = k := by
  unfold cholCols at h
  split at h
  · rename_i F' e
    have := LReturns.unique (LCalls.chol a) hF ⟨8, 8, e⟩
    subst this
    simpa using h
  · simp at h

end Ex

/-- A concrete case of `C26_covariance`. -/
example : ∃ y : Fin 8 → Ex.St × Mat ℚ, HasCov Ex.mean (den Ex.A2) 1 fun ω => den (y ω).2 := by
  have h : ∀ ω : Fin 8, ∃ y, LReturns Ex.cfg Ex.lin (fun B L => sampleM B L Ex.randn 1 (ω, 0) Ex.A2) y ∧ LExact Ex.cfg Ex.lin (fun B L => sampleM B L Ex.randn 1 (ω, 0) Ex.A2) := by
    intro ω
    refine Ex.lmeets (LCalls.sample _ _ _ _) (n := 8) (m := 8) ?_
    revert ω
    decide +kernel
  choose y hy hx using h
  refine ⟨y, C26_covariance Ex.cfg Ex.lin_lawful Ex.randn_ok Ex.mean (fun ω => (ω, 0)) y ⟨[], Ex.A2_wf []⟩ Ex.A2_symm (by simp [Ex.A2, Mat.kind]) hy hx fun F hF => ?_⟩
  have := Ex.cols_of_chol (k := 2) (by decide +kernel) hF
  rw [this]
  exact Ex.noise 0 2 (by omega)

/-- A concrete case of `C26_covariance_woodbury`. -/
example : ∃ y : Fin 8 → Ex.St × Mat ℚ, HasCov Ex.mean (den Ex.P3) 1 fun ω => den (y ω).2 := by
  have h : ∀ ω : Fin 8, ∃ y, LReturns Ex.cfg Ex.lin (fun B L => sampleM B L Ex.randn 1 (ω, 0) Ex.P3) y ∧ LExact Ex.cfg Ex.lin (fun B L => sampleM B L Ex.randn 1 (ω, 0) Ex.P3) := by
    intro ω
    refine Ex.lmeets (LCalls.sample _ _ _ _) (n := 8) (m := 8) ?_
    revert ω
    decide +kernel
  choose y hy hx using h
  refine ⟨y, C26_covariance_woodbury Ex.cfg Ex.lin_lawful Ex.randn_ok Ex.mean (fun ω => (ω, 0)) y ⟨[], Ex.P3_wf []⟩ ⟨rfl, Ex.isSymm_m (by decide +kernel)⟩ hy hx fun F G hF hG => ?_⟩
  have e1 := Ex.cols_of_chol (k := 2) (by decide +kernel) hF
  have e2 := Ex.cols_of_chol (k := 1) (by decide +kernel) hG
  rw [e1, e2]
  exact ⟨Ex.noise 0 2 (by omega), Ex.noise 2 1 (by omega), Ex.noise_unc 2 1 (by omega)⟩

end Verif
