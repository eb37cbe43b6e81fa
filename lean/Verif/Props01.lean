/-
Properties of the core: addition, multiplication, matrix multiplication, dense, shapes, transposition, scalars, diagonals, sums over a
matrix axis.  Beside each theorem an example shows a non-trivial case that meets its hypotheses.
-/
import Verif.Ex

set_option linter.unusedSectionVars false

namespace Verif

variable {K : Type} [Field K] [LinearOrder K]

/-! ### C01 -/

/-- C01.  Addition of well-formed matrices agrees with dense addition, whatever methods run on the way. -/
theorem C01_add (c : Cfg K) {a b r : Mat K} (ha : a.Valid) (hb : b.Valid) (hc : BatchCompat a b) (hs : NoStretch a b)
    (hr : Returns c (fun B => B.add a b) r) (hx : Exact c fun B => B.add a b) :
    r.Valid ∧ IsEltwise (· + ·) (den a) (den b) (den r) := by
  obtain ⟨n, h⟩ := hr.strict hx
  obtain ⟨wa, wb⟩ := ha.common hb hc
  have := (c.ok n).add wa wb hs h
  exact ⟨⟨_, this.wf⟩, IsEltwise.of_eq this.compat this.eq⟩

/-- Woodbury + Kronecker, LowRank + LowRank with a shared column, batched Diagonal + Constant: the hypotheses are met. -/
example : ∃ r, Returns Ex.cfg (fun B => B.add Ex.W Ex.Kr2) r ∧ Exact Ex.cfg fun B => B.add Ex.W Ex.Kr2 := Ex.meets (Calls.add _ _) (n := 6) (by decide +kernel)
example : Ex.W.Valid ∧ Ex.Kr2.Valid ∧ BatchCompat Ex.W Ex.Kr2 ∧ NoStretch Ex.W Ex.Kr2 :=
  ⟨⟨[], Ex.W_wf _⟩, ⟨[], Ex.Kr2_wf _⟩, (Ex.W_wf []).batchCompat (Ex.Kr2_wf []), noStretch_of_eq rfl rfl⟩
example : ∃ r, Returns Ex.cfg (fun B => B.add Ex.R Ex.R') r ∧ Exact Ex.cfg fun B => B.add Ex.R Ex.R' := Ex.meets (Calls.add _ _) (n := 6) (by decide +kernel)
example : Ex.R.Valid ∧ Ex.R'.Valid ∧ BatchCompat Ex.R Ex.R' ∧ NoStretch Ex.R Ex.R' :=
  ⟨⟨[], Ex.R_wf _⟩, ⟨[], Ex.R'_wf _⟩, (Ex.R_wf []).batchCompat (Ex.R'_wf []), noStretch_of_eq rfl rfl⟩
example : ∃ r, Returns Ex.cfg (fun B => B.add Ex.Db Ex.C) r ∧ Exact Ex.cfg fun B => B.add Ex.Db Ex.C := Ex.meets (Calls.add _ _) (n := 6) (by decide +kernel)
example : Ex.Db.Valid ∧ Ex.C.Valid ∧ BatchCompat Ex.Db Ex.C ∧ NoStretch Ex.Db Ex.C :=
  ⟨⟨[2], Ex.Db_wf⟩, ⟨[2], Ex.C_wf _⟩, Ex.Db_wf.batchCompat (Ex.C_wf _), noStretch_of_eq rfl rfl⟩

/-! ### C02 -/

/-- C02.  Element-wise multiplication of well-formed matrices agrees with dense multiplication. -/
theorem C02_multiply (c : Cfg K) {a b r : Mat K} (ha : a.Valid) (hb : b.Valid) (hc : BatchCompat a b) (hs : MulSafe a b)
    (hr : Returns c (fun B => B.mul a b) r) (hx : Exact c fun B => B.mul a b) :
    r.Valid ∧ IsEltwise (· * ·) (den a) (den b) (den r) := by
  obtain ⟨n, h⟩ := hr.strict hx
  obtain ⟨wa, wb⟩ := ha.common hb hc
  have := (c.ok n).mul wa wb hs h
  exact ⟨⟨_, this.wf⟩, IsEltwise.of_eq this.compat this.eq⟩

example : ∃ r, Returns Ex.cfg (fun B => B.mul Ex.W Ex.R) r ∧ Exact Ex.cfg fun B => B.mul Ex.W Ex.R := Ex.meets (Calls.mul _ _) (n := 8) (by decide +kernel)
example : Ex.W.Valid ∧ Ex.R.Valid ∧ BatchCompat Ex.W Ex.R ∧ MulSafe Ex.W Ex.R :=
  ⟨⟨[], Ex.W_wf _⟩, ⟨[], Ex.R_wf _⟩, (Ex.W_wf []).batchCompat (Ex.R_wf []), noStretch_of_eq rfl rfl, fun _ => trivial, fun _ => trivial⟩
example : ∃ r, Returns Ex.cfg (fun B => B.mul Ex.D Ex.Kr2) r ∧ Exact Ex.cfg fun B => B.mul Ex.D Ex.Kr2 := Ex.meets (Calls.mul _ _) (n := 8) (by decide +kernel)
example : Ex.D.Valid ∧ Ex.Kr2.Valid ∧ BatchCompat Ex.D Ex.Kr2 ∧ MulSafe Ex.D Ex.Kr2 :=
  ⟨⟨[], Ex.D_wf _⟩, ⟨[], Ex.Kr2_wf _⟩, (Ex.D_wf []).batchCompat (Ex.Kr2_wf []), noStretch_of_eq rfl rfl, fun _ => ⟨rfl, trivial, trivial⟩, fun _ => trivial⟩

/-! ### C03 -/

/-- C03.  Matrix multiplication, with both transposition flags, agrees with dense matrix multiplication. -/
theorem C03_matmul (c : Cfg K) {ta tb : Bool} {a b r : Mat K} (ha : a.Valid) (hb : b.Valid) (hc : BatchCompat a b)
    (h2a : 2 ≤ (den a).rank) (h2b : 2 ≤ (den b).rank)
    (hr : Returns c (fun B => B.matmul ta tb a b) r) (hx : Exact c fun B => B.matmul ta tb a b) :
    r.Valid ∧ IsMatProd (if ta then tr (den a) else den a) (if tb then tr (den b) else den b) (den r) := by
  obtain ⟨n, h⟩ := hr.strict hx
  obtain ⟨wa, wb⟩ := ha.common hb hc
  have := (c.ok n).matmul wa wb h2a h2b h
  exact ⟨⟨_, this.wf⟩, IsMatProd.of_eq ((wa.good h2a).trIf ta) ((wb.good h2b).trIf tb) this.comp this.eq⟩

/-- Kronecker @ Dense by reshaping, Woodbury @ Woodbury, batched. -/
example : ∃ r, Returns Ex.cfg (fun B => B.matmul true false Ex.Kr (.dense (Ex.m 4 1 [1, 2, 3, 4]))) r ∧
    Exact Ex.cfg fun B => B.matmul true false Ex.Kr (.dense (Ex.m 4 1 [1, 2, 3, 4])) := Ex.meets (Calls.matmul _ _ _ _) (n := 8) (by decide +kernel)
example : ∃ r, Returns Ex.cfg (fun B => B.matmul false true Ex.W Ex.W) r ∧ Exact Ex.cfg fun B => B.matmul false true Ex.W Ex.W :=
  Ex.meets (Calls.matmul _ _ _ _) (n := 10) (by decide +kernel)
example : ∃ r, Returns Ex.cfg (fun B => B.matmul false true Ex.Mb Ex.R) r ∧ Exact Ex.cfg fun B => B.matmul false true Ex.Mb Ex.R :=
  Ex.meets (Calls.matmul _ _ _ _) (n := 10) (by decide +kernel)
example : Ex.Mb.Valid ∧ Ex.R.Valid ∧ BatchCompat Ex.Mb Ex.R ∧ 2 ≤ (den Ex.Mb).rank ∧ 2 ≤ (den Ex.R).rank :=
  ⟨⟨[2], Ex.Mb_wf⟩, ⟨[2], Ex.R_wf _⟩, Ex.Mb_wf.batchCompat (Ex.R_wf _), by decide, by decide⟩

/-! ### C04 -/

/-- C04.  `B.dense` returns the matrix the structured matrix denotes (`den`, one line per class in `Spec.lean`). -/
theorem C04_dense (c : Cfg K) {a : Mat K} {t : Tensor K} (ha : a.Valid)
    (hr : Returns c (fun B => B.dense a) t) (hx : Exact c fun B => B.dense a) : t = den a := by
  obtain ⟨n, h⟩ := hr.strict hx
  exact (c.ok n).dense ha.own h

example : ∃ r, Returns Ex.cfg (fun B => B.dense Ex.T) r ∧ Exact Ex.cfg fun B => B.dense Ex.T := Ex.meets (Calls.dense _) (n := 6) (by decide +kernel)
example : ∃ r, Returns Ex.cfg (fun B => B.dense (.kron Ex.W Ex.R)) r ∧ Exact Ex.cfg fun B => B.dense (.kron Ex.W Ex.R) :=
  Ex.meets (Calls.dense _) (n := 6) (by decide +kernel)
example : Ex.T.Valid := ⟨[], Ex.T_wf _⟩

/-- C01-C03 in terms of `B.dense` alone: making the operands and the result dense commutes with addition. -/
theorem C01_add_dense (c : Cfg K) {a b r : Mat K} {x y z : Tensor K} (ha : a.Valid) (hb : b.Valid) (hc : BatchCompat a b) (hs : NoStretch a b)
    (hr : Returns c (fun B => B.add a b) r) (hx : Exact c fun B => B.add a b)
    (da : Returns c (fun B => B.dense a) x) (xa : Exact c fun B => B.dense a)
    (db : Returns c (fun B => B.dense b) y) (xb : Exact c fun B => B.dense b)
    (dr : Returns c (fun B => B.dense r) z) (xr : Exact c fun B => B.dense r) : IsEltwise (· + ·) x y z := by
  obtain ⟨vr, h⟩ := C01_add c ha hb hc hs hr hx
  rw [C04_dense c ha da xa, C04_dense c hb db xb, C04_dense c vr dr xr]
  exact h

theorem C02_multiply_dense (c : Cfg K) {a b r : Mat K} {x y z : Tensor K} (ha : a.Valid) (hb : b.Valid) (hc : BatchCompat a b) (hs : MulSafe a b)
    (hr : Returns c (fun B => B.mul a b) r) (hx : Exact c fun B => B.mul a b)
    (da : Returns c (fun B => B.dense a) x) (xa : Exact c fun B => B.dense a)
    (db : Returns c (fun B => B.dense b) y) (xb : Exact c fun B => B.dense b)
    (dr : Returns c (fun B => B.dense r) z) (xr : Exact c fun B => B.dense r) : IsEltwise (· * ·) x y z := by
  obtain ⟨vr, h⟩ := C02_multiply c ha hb hc hs hr hx
  rw [C04_dense c ha da xa, C04_dense c hb db xb, C04_dense c vr dr xr]
  exact h

theorem C03_matmul_dense (c : Cfg K) {ta tb : Bool} {a b r : Mat K} {x y z : Tensor K} (ha : a.Valid) (hb : b.Valid) (hc : BatchCompat a b)
    (h2a : 2 ≤ (den a).rank) (h2b : 2 ≤ (den b).rank)
    (hr : Returns c (fun B => B.matmul ta tb a b) r) (hx : Exact c fun B => B.matmul ta tb a b)
    (da : Returns c (fun B => B.dense a) x) (xa : Exact c fun B => B.dense a)
    (db : Returns c (fun B => B.dense b) y) (xb : Exact c fun B => B.dense b)
    (dr : Returns c (fun B => B.dense r) z) (xr : Exact c fun B => B.dense r) :
    IsMatProd (if ta then tr x else x) (if tb then tr y else y) z := by
  obtain ⟨vr, h⟩ := C03_matmul c ha hb hc h2a h2b hr hx
  rw [C04_dense c ha da xa, C04_dense c hb db xb, C04_dense c vr dr xr]
  exact h

/-! ### C05 -/

/-- C05.  The reported shapes and rank are those of the dense matrix; they never raise on a well-formed matrix. -/
theorem C05_shape {a : Mat K} (ha : a.Valid) :
    shape a = .ok (den a).sh ∧ shapeBatch a = .ok (den a).bt ∧ shapeMatrix a = .ok ((den a).rows, (den a).cols) ∧ rankM a = .ok (den a).rank :=
  ⟨ha.own.shape, ha.own.shapeBatch, ha.own.shapeMatrix, ha.own.rankM⟩

/-- The shape of a matrix is its batch shape followed by its matrix shape (last axis first: cols, rows, batch). -/
theorem C05_shape_split {a : Mat K} (ha : a.Valid) (h : a.isAM = true) :
    ∃ bt r c, shapeBatch a = .ok bt ∧ shapeMatrix a = .ok (r, c) ∧ shape a = .ok (c :: r :: bt) :=
  ⟨_, _, _, ha.own.shapeBatch, ha.own.shapeMatrix, by rw [ha.own.shape, ← Tensor.sh_eq (ha.own.rank h)]⟩

/-- In particular the shape reported for a matrix is the shape of the array `B.dense` returns. -/
theorem C05_shape_dense (c : Cfg K) {a : Mat K} {t : Tensor K} (ha : a.Valid)
    (hr : Returns c (fun B => B.dense a) t) (hx : Exact c fun B => B.dense a) : shape a = .ok t.sh := by
  rw [C04_dense c ha hr hx]; exact ha.own.shape

example : shape Ex.T = .ok [2, 6] ∧ shape Ex.Kr = .ok [4, 4] ∧ shape Ex.Db = .ok [2, 2, 2] := by decide +kernel

/-! ### C06 -/

/-- C06.  Transposition never raises on a well-formed matrix and denotes the transpose in every batch element. -/
theorem C06_transpose {a : Mat K} (ha : a.Valid) (h2 : 2 ≤ (den a).rank) :
    ∃ r, transposeM a = .ok r ∧ r.Valid ∧ IsTranspose (den a) (den r) := by
  obtain ⟨r, h, w, e, _⟩ := transposeM_ok ha.own
  rw [nTranspose_of_rank h2] at e
  exact ⟨r, h, ⟨_, w⟩, IsTranspose.of_eq h2 e⟩

/-- The class of the transpose: lower and upper triangular swap, every other class is kept. -/
def trKind : Kind → Kind
  | .lt => .ut
  | .ut => .lt
  | k => k

theorem C06_transpose_kind {a r : Mat K} (h : transposeM a = .ok r) : r.kind = a.kind.map trKind := by
  cases a with
  | lr l r' m =>
    simp only [transposeM, bind_ok_iff] at h
    obtain ⟨m', _, h⟩ := h
    simp only [mkLR, bind_ok_iff, pure_eq_ok] at h
    obtain ⟨_, _, _, _, _, _, _, _, _, _, _, _, _, _, _, _, _, _, rfl⟩ := h
    rfl
  | wb d l r' m =>
    simp only [transposeM, bind_ok_iff, mkWB, pure_eq_ok] at h
    obtain ⟨_, _, _, _, _, _, _, _, _, _, rfl⟩ := h
    rfl
  | const t r' c =>
    simp only [transposeM] at h
    obtain ⟨_, rfl⟩ := mkConst_ok h
    rfl
  | tiled n blk reps axis =>
    simp only [transposeM, bind_ok_iff, mkTiled, pure_eq_ok] at h
    obtain ⟨_, _, _, _, _, _, _, _, _, _, rfl⟩ := h
    rfl
  | _ =>
    simp only [transposeM, mkUT, mkLT, mkDense, bind_ok_iff, pure_eq_ok, Except.ok.injEq] at h
    aesop (add simp [Mat.kind, trKind])

/-- Transposing twice denotes the matrix again. -/
theorem C06_transpose_twice {a : Mat K} (ha : a.Valid) (h2 : 2 ≤ (den a).rank) :
    ∃ r s, transposeM a = .ok r ∧ transposeM r = .ok s ∧ den s = den a ∧ s.kind = a.kind := by
  obtain ⟨r, h, w, e, _⟩ := transposeM_ok ha.own
  obtain ⟨s, h', w', e', _⟩ := transposeM_ok w
  rw [nTranspose_of_rank h2] at e
  have hr : 2 ≤ (den r).rank := by rw [e, length_tr h2]; exact h2
  rw [nTranspose_of_rank hr, e, tr_tr h2] at e'
  refine ⟨r, s, h, h', e', ?_⟩
  rw [C06_transpose_kind h', C06_transpose_kind h]
  cases a.kind with
  | none => rfl
  | some k => cases k <;> rfl

example : Ex.W.Valid ∧ Ex.T.Valid ∧ Ex.Kr.Valid ∧ 2 ≤ (den Ex.W).rank ∧ 2 ≤ (den Ex.T).rank :=
  ⟨⟨[], Ex.W_wf _⟩, ⟨[], Ex.T_wf _⟩, ⟨[], Ex.Kr_wf _⟩, by decide, by decide⟩

/-! ### C08 -/

/-- C08.  A scalar (number or rank-0 tensor) added to a matrix is added to every entry. -/
theorem C08_add_scalar (c : Cfg K) {a r : Mat K} (x : K) (ha : a.Valid) (h2 : 2 ≤ (den a).rank)
    (hr : Returns c (fun B => B.add a (.num (scalarT x))) r) (hx : Exact c fun B => B.add a (.num (scalarT x))) :
    r.Valid ∧ IsMap (fun y => y + x) (den a) (den r) := by
  have hs : (Mat.num (scalarT x)).WF (den a).bt := ⟨by simp [Tensor.rank], Fits.nil _⟩
  have hn : NoStretch a (.num (scalarT x)) := ⟨fun _ => ⟨Or.inl rfl, Or.inl rfl⟩, fun h => by simp [Mat.rigid] at h⟩
  obtain ⟨v, h⟩ := C01_add c ha ⟨_, hs⟩ (ha.own.batchCompat hs) hn hr hx
  refine ⟨v, ?_, fun i hi => ?_⟩
  · rw [h.shape]; simp [den]
  · rw [h.entries i hi]; simp [den]

/-- `a * x` scales every entry. -/
theorem C08_mul_scalar (c : Cfg K) {a r : Mat K} (x : K) (ha : a.Valid) (h2 : 2 ≤ (den a).rank)
    (hr : Returns c (fun B => B.mul a (.num (scalarT x))) r) (hx : Exact c fun B => B.mul a (.num (scalarT x))) :
    r.Valid ∧ IsMap (fun y => y * x) (den a) (den r) := by
  have hs : (Mat.num (scalarT x)).WF (den a).bt := ⟨by simp [Tensor.rank], Fits.nil _⟩
  have hn : NoStretch a (.num (scalarT x)) := ⟨fun _ => ⟨Or.inl rfl, Or.inl rfl⟩, fun h => by simp [Mat.rigid] at h⟩
  obtain ⟨v, h⟩ := C02_multiply c ha ⟨_, hs⟩ (ha.own.batchCompat hs) ⟨hn, fun _ => trivial, fun h => by simp [Mat.readsDiag] at h⟩ hr hx
  refine ⟨v, ?_, fun i hi => ?_⟩
  · rw [h.shape]; simp [den]
  · rw [h.entries i hi]; simp [den]

/-- `x * a` scales every entry. -/
theorem C08_scalar_mul (c : Cfg K) {a r : Mat K} (x : K) (ha : a.Valid) (h2 : 2 ≤ (den a).rank)
    (hr : Returns c (fun B => B.mul (.num (scalarT x)) a) r) (hx : Exact c fun B => B.mul (.num (scalarT x)) a) :
    r.Valid ∧ IsMap (fun y => x * y) (den a) (den r) := by
  have hs : (Mat.num (scalarT x)).WF (den a).bt := ⟨by simp [Tensor.rank], Fits.nil _⟩
  have hn : NoStretch (.num (scalarT x)) a := ⟨fun h => by simp [Mat.rigid] at h, fun _ => ⟨Or.inl rfl, Or.inl rfl⟩⟩
  obtain ⟨v, h⟩ := C02_multiply c ⟨_, hs⟩ ha (hs.batchCompat ha.own) ⟨hn, fun h => by simp [Mat.readsDiag] at h, fun _ => trivial⟩ hr hx
  refine ⟨v, ?_, fun i hi => ?_⟩
  · rw [h.shape]; simp [den]
  · rw [h.entries i hi]; simp [den]

/-- The number 0 is promoted to a Zero matrix, any other scalar to a Constant; a numeric matrix to Dense. -/
theorem C08_promote (env : Env K) (x : K) :
    convertAM env (.num (scalarT x)) = if env.isNumber (scalarT x) = true ∧ x = 0 then .zero [] 1 1 else .const (scalarT x) 1 1 := by
  simp [convertAM, Tensor.rank]

example : ∃ r, Returns Ex.cfg (fun B => B.add Ex.W Ex.s) r ∧ Exact Ex.cfg fun B => B.add Ex.W Ex.s := Ex.meets (Calls.add _ _) (n := 8) (by decide +kernel)
example : ∃ r, Returns Ex.cfg (fun B => B.mul Ex.s Ex.Kr) r ∧ Exact Ex.cfg fun B => B.mul Ex.s Ex.Kr := Ex.meets (Calls.mul _ _) (n := 8) (by decide +kernel)

/-! ### C11 -/

/-- C11.  `B.diag` extracts the diagonal in every batch element.  For Kronecker products the right factors must be square (`DiagOk`). -/
theorem C11_diag (c : Cfg K) {a : Mat K} {t : Tensor K} (ha : a.Valid) (h2 : 2 ≤ (den a).rank) (hd : a.DiagOk)
    (hr : Returns c (fun B => B.diag a) t) (hx : Exact c fun B => B.diag a) : IsDiagonalOf (den a) t := by
  obtain ⟨n, h⟩ := hr.strict hx
  exact IsDiagonalOf.of_eq h2 ((c.ok n).diag ha.own h2 hd h)

example : ∃ r, Returns Ex.cfg (fun B => B.diag (.kron Ex.W Ex.R)) r ∧ Exact Ex.cfg fun B => B.diag (.kron Ex.W Ex.R) :=
  Ex.meets (Calls.diag _) (n := 8) (by decide +kernel)
example : (Mat.kron Ex.W Ex.R).Valid ∧ (Mat.kron Ex.W Ex.R).DiagOk := ⟨⟨[], ⟨Ex.W_wf _, Ex.R_wf _⟩, by decide, by decide⟩, rfl, trivial, trivial⟩

/-! ### C38 -/

/-- C38.  The three-factor product is right whichever association the cost estimate chooses. -/
theorem C38_matmul3 (c : Cfg K) {ta tb tc : Bool} {x y z r : Mat K} {S : Shp} (hx : x.WF S) (hy : y.WF S) (hz : z.WF S)
    (h2x : 2 ≤ (den x).rank) (h2y : 2 ≤ (den y).rank) (h2z : 2 ≤ (den z).rank)
    (hr : Returns c (fun B => matmul3 B ta tb tc x y z) r) (he : Exact c fun B => matmul3 B ta tb tc x y z) :
    ∃ p, IsMatProd (if ta then tr (den x) else den x) (if tb then tr (den y) else den y) p ∧
      IsMatProd p (if tc then tr (den z) else den z) (den r) ∧ r.Valid := by
  obtain ⟨n, h⟩ := hr.strict he
  obtain ⟨w, h1, h2, e⟩ := matmul3_ok (c.ok n) hx hy hz h2x h2y h2z h
  have gx := (hx.good h2x).trIf ta
  have gy := (hy.good h2y).trIf tb
  have gz := (hz.good h2z).trIf tc
  exact ⟨_, IsMatProd.of_eq gx gy h1 rfl, IsMatProd.of_eq (gx.mm gy) gz (by rw [mm_cols]; exact h2) e, _, w⟩

example : ∃ r, Returns Ex.cfg (fun B => matmul3 B true false true Ex.R Ex.D Ex.W) r ∧ Exact Ex.cfg fun B => matmul3 B true false true Ex.R Ex.D Ex.W :=
  Ex.meets (fun _ _ _ h => matmul3_below h _ _ _ _ _ _) (n := 8) (by decide +kernel)

end Verif
