/-
Success of linear algebra (C50): on operands for which the result exists, the functions return it.
-/
import Verif.LinFine2

set_option linter.unusedSectionVars false

namespace Verif

variable {K : Type} [Field K] [LinearOrder K] [IsStrictOrderedRing K] {α : Type}

/-- The functions of linear algebra raise nothing on operands in the batch universe `S` that meet the conditions. -/
structure LOps.Fine (S : Shp) (L : LOps K) : Prop where
  inv : InvCalm S L
  invFit : InvFit L
  chol : CholCalm S L
  cholFit : CholFit L
  solve : SolveCalm S L
  solveFit : SolveFit L
  cs : CsCalm S L
  csFit : CsFit L
  pd : PdCalm S L
  pdFit : PdFit S L
  ld : LdCalm S L
  root : RootCalm S L
  rootFit : RootFit L
  cholPos : ∀ {t x}, L.chol (.dense t) = .ok x → x.DetFine

theorem lops_fine {S : Shp} {env env' : Env K} {lin : LinEnv K} {B : Ops K} (h0 : 0 ∉ S) (hl : lin.Lawful) (hc : lin.Complete) (hB : B.Ok) (hF : B.Fine S) (hK : B.Keeps)
    (hA : AddKinds env' B) (hM : MmKinds env' B) (hNum : NumMm B) (n : ℕ) : (lops env lin B n).Fine S := by
  induction n with
  | zero =>
    refine ⟨?_, ?_, ?_, ?_, ?_, ?_, ?_, ?_, ?_, ?_, ?_, ?_, ?_, ?_⟩
    · intro a _ _ _; exact Calm.fuel
    · intro S κ a _ _ x h; cases h
    · intro a _ _ _; exact Calm.fuel
    · intro S κ a _ _ x h; cases h
    · intro a b _ _ _ _ _ _ _ _ _; exact Calm.fuel
    · intro S a b _ _ _ _ x h; cases h
    · intro a b _ _ _ _ _ _ _; exact Calm.fuel
    · intro S κ a b _ _ _ _ x h; cases h
    · intro a _ _ _; exact Calm.fuel
    · intro κ a _ _ _ x h; cases h
    · intro a _ _ _; exact Calm.fuel
    · intro a _ _ _; exact Calm.fuel
    · intro t x h; cases h
    · intro t x h; cases h
  | succ n ih =>
    have ok := lops_ok (env := env) (env' := env') hl hB hA hM hNum n
    exact ⟨stepInv_calm h0 hc hB hF hK hA hM ok.inv ih.invFit ih.inv, stepInv_fit hB hK ok.inv ih.invFit, stepChol_calm hl hc hB hF ok.chol ih.cholFit ih.chol, stepChol_fit hK ih.cholFit,
      stepSolve_calm h0 hc hB hF ok.inv ih.invFit ih.inv, stepSolve_fit hK ih.invFit, stepCholSolve_calm h0 hl hc ok.solve ih.solveFit ih.solve ih.cs,
      stepCholSolve_fit ih.solveFit ih.csFit, stepPdInv_calm h0 hB hF hK hA hM ok.inv ih.inv ok.chol ih.chol ih.cs ok.pd ih.pdFit ih.pd,
      stepPdInv_fit h0 hB hK hA hM ok.inv ih.invFit ok.chol ih.cholFit ih.csFit ok.pd ih.pdFit,
      stepLogdet_calm h0 hc hB hF hK hA hM ok.inv ih.inv ok.chol ih.chol ok.pd ih.pdFit ih.pd ok.ld ih.ld ih.cholPos,
      stepRoot_calm hl hc hB hF hK ih.chol ok.root ih.rootFit ih.root, stepRoot_fit hK, chol_pos hl⟩

theorem Cfg.lfine (c : Cfg K) {lin : LinEnv K} (hl : lin.Lawful) (hc : lin.Complete) {S : Shp} (h0 : 0 ∉ S) (n m : ℕ) : (lops c.code lin (ops c.strict n) m).Fine S :=
  lops_fine h0 hl hc (c.ok n) (c.fine h0 n) (ops_keeps c.strict n) (ops_addKinds c.strict n) (ops_mmKinds c.strict n) (ops_numMm c.strict n) m

/-- A call of linear algebra that finishes, is exact and raises nothing under the strict tests, returns. -/
theorem LFinishes.returns {c : Cfg K} {lin : LinEnv K} {f : Ops K → LOps K → E α} (h : LFinishes c lin f) (hx : LExact c lin f)
    (hf : ∀ n m, Calm (f (ops c.strict n) (lops c.code lin (ops c.strict n) m))) : ∃ r, LReturns c lin f r := by
  rcases h with h | ⟨e, m, he, n, h⟩
  · exact h
  · exact absurd he (hf n m e ((hx m n).trans h))

/-- A numeric backend that is exact where it returns, returns where the result exists, and does not run forever. -/
structure LinEnv.Good (lin : LinEnv K) : Prop where
  lawful : lin.Lawful
  complete : lin.Complete
  total : lin.Total

/-- C50.  `B.inv` returns the inverse, in the class of its argument. -/
theorem C50_inv (c : Cfg K) {lin : LinEnv K} (hl : lin.Good) {a : Mat K} (ha : a.Supported) (hd : a.InvDom) (hx : LExact c lin fun _ L => L.inv a) :
    ∃ r, LReturns c lin (fun _ L => L.inv a) r ∧ r.Valid ∧ IsInverse (den a) (den r) ∧ r.kind = a.kind := by
  obtain ⟨r, h⟩ := (C35_inv c hl.total a).returns hx fun n m => (c.lfine hl.lawful hl.complete ha.batch n m).inv ha.valid.own ha.fit hd
  exact ⟨r, h, C19_inv c hl.lawful ha.valid h hx⟩

/-- C50.  `B.pd_inv` of a positive-definite matrix returns the inverse. -/
theorem C50_pd_inv (c : Cfg K) {lin : LinEnv K} (hl : lin.Good) {a : Mat K} (ha : a.Supported) (hd : a.PosDom) (hx : LExact c lin fun _ L => L.pdInv a) :
    ∃ r, LReturns c lin (fun _ L => L.pdInv a) r ∧ r.Valid ∧ IsInverse (den a) (den r) := by
  obtain ⟨r, h⟩ := (C35_pd_inv c hl.total a).returns hx fun n m => (c.lfine hl.lawful hl.complete ha.batch n m).pd ha.valid.own ha.fit hd
  exact ⟨r, h, C20_pd_inv c hl.lawful ha.valid hd.pdDom h hx⟩

/-- C50.  `B.cholesky` returns a factor. -/
theorem C50_cholesky (c : Cfg K) {lin : LinEnv K} (hl : lin.Good) {a : Mat K} (ha : a.Supported) (hd : a.CholFine) (hx : LExact c lin fun _ L => L.chol a) :
    ∃ r, LReturns c lin (fun _ L => L.chol a) r ∧ r.Valid ∧ IsFactor (den a) (den r) := by
  obtain ⟨r, h⟩ := (C35_cholesky c hl.total a).returns hx fun n m => (c.lfine hl.lawful hl.complete ha.batch n m).chol ha.valid.own ha.fit hd
  obtain ⟨h1, h2, _⟩ := C21_cholesky c hl.lawful ha.valid hd.dom h hx
  exact ⟨r, h, h1, h2⟩

/-- C50.  `B.solve` returns the solution (a Zero right-hand side is returned as it is). -/
theorem C50_solve (c : Cfg K) {lin : LinEnv K} (hl : lin.Good) {a b : Mat K} (ha : a.Supported) (hb : b.Supported) (hc : BatchCompat a b) (h2a : 2 ≤ (den a).rank) (h2b : 2 ≤ (den b).rank)
    (hr : (den a).rows = (den b).rows) (hd : a.SolveFine) (hk : NoKronRhs a b) (hx : LExact c lin fun _ L => L.solve a b) :
    ∃ x, LReturns c lin (fun _ L => L.solve a b) x ∧ x.Valid ∧ (IsSolution (den a) (den b) (den x) ∨ b.kind = some .zero ∧ x = b) := by
  obtain ⟨wa, wb⟩ := ha.valid.common hb.valid hc
  obtain ⟨r, h⟩ := (C35_solve c hl.total a b).returns hx fun n m =>
    (c.lfine hl.lawful hl.complete (zero_bsh ha.batch hb.batch) n m).solve wa wb ha.fit hb.fit h2a h2b hr hd hk
  exact ⟨r, h, C24_solve c hl.lawful ha.valid hb.valid hc h2a h2b h hx⟩

theorem CsFine.dom {a b : Mat K} (h : CsFine a b) : CsDom a b := by
  induction a generalizing b with
  | kron l r i j => cases b <;> first | exact ⟨i h.1, j h.2⟩ | exact h.elim
  | num s => cases b <;> first | exact h.1 | exact h.elim
  | diag d => cases b <;> exact h.2.2.1
  | lt t => cases b <;> exact h.2.2
  | ut t => cases b <;> exact h.2.2
  | _ => cases b <;> exact h.elim

/-- C50.  `B.cholesky_solve` returns the solution. -/
theorem C50_cholesky_solve (c : Cfg K) {lin : LinEnv K} (hl : lin.Good) {a b : Mat K} (ha : a.Supported) (hb : b.Supported) (hc : BatchCompat a b) (h2a : 2 ≤ (den a).rank)
    (h2b : 2 ≤ (den b).rank) (hd : CsFine a b) (hx : LExact c lin fun _ L => L.cholSolve a b) :
    ∃ x, LReturns c lin (fun _ L => L.cholSolve a b) x ∧ x.Valid ∧ ∃ p, IsMatProd (den a) (tr (den a)) p ∧ IsSolution p (den b) (den x) := by
  obtain ⟨wa, wb⟩ := ha.valid.common hb.valid hc
  obtain ⟨r, h⟩ := (C35_cholesky_solve c hl.total a b).returns hx fun n m =>
    (c.lfine hl.lawful hl.complete (zero_bsh ha.batch hb.batch) n m).cs wa wb ha.fit hb.fit h2a h2b hd
  exact ⟨r, h, C24_cholesky_solve c hl.lawful ha.valid hb.valid hc h2a h2b hd.dom h hx⟩

/-- C50.  `B.logdet` returns the log-determinant. -/
theorem C50_logdet (c : Cfg K) {lin : LinEnv K} (hl : lin.Good) {a : Mat K} (ha : a.Supported) (hd : a.DetFine) (hx : LExact c lin fun _ L => L.logdet a) :
    ∃ v, LReturns c lin (fun _ L => L.logdet a) v ∧ IsLogdet lin (den a) v := by
  obtain ⟨r, h⟩ := (C35_logdet c hl.total (fun t r h => rank_of_sh (hl.lawful.chol h).2.2.1) (hd.ldFin ha.valid.own)).returns hx fun n m =>
    (c.lfine hl.lawful hl.complete ha.batch n m).ld ha.valid.own ha.fit hd
  exact ⟨r, h, C22_logdet c hl.lawful ha.valid hd.ldDom h hx⟩

/-- C50.  `B.root` returns the symmetric square root. -/
theorem C50_root (c : Cfg K) {lin : LinEnv K} (hl : lin.Good) {a : Mat K} (ha : a.Supported) (hd : a.RootFine) (hx : LExact c lin fun _ L => L.root a) :
    ∃ r, LReturns c lin (fun _ L => L.root a) r ∧ r.Valid ∧ IsRoot (den a) (den r) := by
  obtain ⟨r, h⟩ := (C35_root c hl.total a).returns hx fun n m => (c.lfine hl.lawful hl.complete ha.batch n m).root ha.valid.own ha.fit hd
  exact ⟨r, h, C25_root c hl.lawful ha.valid hd.dom h hx⟩

end Verif
