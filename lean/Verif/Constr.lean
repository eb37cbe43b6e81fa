/-
Constructors (C29).
-/
import Verif.Ex

set_option linter.unusedSectionVars false
set_option linter.unusedSimpArgs false

namespace Verif

variable {K : Type} [Field K] [LinearOrder K]

/-- `LowRank(left, right=None, middle=None)`, `lowrank.py` 33-103: the checks in their order, then the properties `right` (left if not given)
and `middle` (`B.fill_diag(B.one(left), rank)` with `rank` the number of columns of `left`, if not given). -/
def mkLowRank (l : Mat K) (r m : Option (Mat K)) : E (Mat K) := do
  assertMatrix l
  match m with
  | none => pure ()
  | some m => do
    assertMatrix m
    guardE ((← shapeMatrix l).2 = (← shapeMatrix m).1) .assertion
  match r with
  | none => pure ()
  | some r => do
    assertMatrix r
    match m with
    | some m => guardE ((← shapeMatrix r).2 = (← shapeMatrix m).2) .assertion
    | none => guardE ((← shapeMatrix r).2 = (← shapeMatrix l).2) .assertion
  let r' := r.getD l
  let m' ← match m with
    | some m => pure m
    | none => do fillDiag (scalarT 1) (← shapeMatrix l).2
  return .lr l r' m'

/-- `Diagonal(mat: AbstractMatrix)`, `diagonal.py` 38-40. -/
def mkDiagOf (B : Ops K) (a : Mat K) : E (Mat K) := do mkDiag (← B.diag a)
/-- `LowerTriangular(mat)` for any matrix, `triangular.py` 21-27. -/
def mkLTOf (B : Ops K) (a : Mat K) : E (Mat K) := do
  assertMatrix a
  return .lt (← B.dense a)
/-- `UpperTriangular(mat)` for any matrix, `triangular.py` 57-63. -/
def mkUTOf (B : Ops K) (a : Mat K) : E (Mat K) := do
  assertMatrix a
  return .ut (← B.dense a)
/-- `Dense(mat)` for any matrix, `matrix.py` 115-117. -/
def mkDenseOf (B : Ops K) (a : Mat K) : E (Mat K) := do return mkDense (← B.dense a)

/-- A diagonal of ones. -/
theorem fillDiag_one (n : ℕ) : fillDiag (scalarT (1 : K)) n = .ok (.diag (fillT [n] 1)) := by
  have h : zipB (· * ·) (expandEnd 1 (scalarT (1 : K))) (fillT [n] 1) = fillT [n] 1 := by
    have hc : Compat [1] [n] := by intro k; cases k <;> simp
    have e : bsh [1] [n] = [n] := by simp [bsh]
    refine Tensor.ext_inRange (by show bsh [1] [n] = [n]; exact e) fun i hi => ?_
    have hi : InRange [n] i := by
      have : (zipB (· * ·) (expandEnd 1 (scalarT (1 : K))) (fillT [n] 1)).sh = [n] := e
      rw [this] at hi; exact hi
    have hf1 : Fits [n] [1] := by intro k; cases k <;> simp
    rw [zipB_get _ hi (by exact hf1) (Fits.refl _), fillT_get _ hi (Fits.refl _)]
    have : (expandEnd 1 (scalarT (1 : K))).get i = 1 := by
      rw [show expandEnd 1 (scalarT (1 : K)) = ofFn [1] (fun i => (scalarT (1:K)).get fun k => i (k+1)) from rfl, ofFn_get_fits _ hi hf1]
      exact fillT_get (S := []) (1 : K) (by intro k; simp [clip, dim]) (Fits.refl _)
    rw [this, one_mul]
  have hc : Compat (expandEnd 1 (scalarT (1 : K))).sh (fillT (n :: (scalarT (1:K)).sh) (1:K)).sh := by
    intro k
    show dim [1] k = 1 ∨ _
    left; cases k <;> simp
  unfold fillDiag nMul nZip
  rw [if_pos hc]
  show mkDiag (zipB (· * ·) (expandEnd 1 (scalarT (1 : K))) (fillT [n] 1)) = _
  rw [h]
  simp [mkDiag, guardE, fillT, ofFn, Tensor.rank]

/-! ### C29 -/

/-- C29, Diagonal: AssertionError for a rank-0 argument, otherwise the matrix with this diagonal. -/
theorem C29_diagonal (t : Tensor K) : mkDiag t = if 1 ≤ t.rank then .ok (.diag t) else .error .assertion := by
  unfold mkDiag guardE; split_ifs <;> rfl

/-- C29, LowerTriangular and UpperTriangular of an array. -/
theorem C29_triangular (t : Tensor K) : mkLT t = (if 2 ≤ t.rank then .ok (.lt t) else .error .assertion) ∧
    mkUT t = (if 2 ≤ t.rank then .ok (.ut t) else .error .assertion) := by
  unfold mkLT mkUT guardE; split_ifs <;> exact ⟨rfl, rfl⟩

/-- C29, Zero: ValueError without rows and columns. -/
theorem C29_zero (s : Shp) : (s.length < 2 ∧ (mkZero s : E (Mat K)) = .error .value) ∨
    ∃ c r bt, s = c :: r :: bt ∧ (mkZero s : E (Mat K)) = .ok (.zero bt r c) := by
  match s with
  | [] => exact Or.inl ⟨by simp, rfl⟩
  | [_] => exact Or.inl ⟨by simp, rfl⟩
  | c :: r :: bt => exact Or.inr ⟨c, r, bt, rfl, rfl⟩

/-- C29, Constant: ValueError without rows and columns, RuntimeError if the constants do not broadcast with an explicit batch shape, and otherwise
the matrix of the given size whose batch shape is the broadcast of the two, every entry of batch element β being the constant of β. -/
theorem C29_constant (t : Tensor K) (s : Shp) :
    (s.length < 2 ∧ mkConst t s = .error .value) ∨
    ∃ c r bt, s = c :: r :: bt ∧
      ((¬ Compat t.sh bt ∧ mkConst t s = .error .runtime) ∨
       ∃ a, mkConst t s = .ok a ∧ a.Valid ∧ a.kind = some .const ∧ (den a).sh = c :: r :: bsh t.sh bt ∧
        ∀ β i j, InRange (bsh t.sh bt) β → i < r → j < c → (den a).at' β i j = t.get β) := by
  match s with
  | [] => exact Or.inl ⟨by simp, rfl⟩
  | [_] => exact Or.inl ⟨by simp, rfl⟩
  | [c, r] =>
    refine Or.inr ⟨c, r, [], rfl, Or.inr ⟨.const t r c, rfl, ⟨t.sh, Fits.refl _⟩, rfl, by simp [den, constM, mkMat], ?_⟩⟩
    intro β i j hβ hi hj
    rw [bsh_nil_right] at hβ
    exact at_constM hβ (Fits.refl _) hi hj
  | c :: r :: b :: bt =>
    refine Or.inr ⟨c, r, b :: bt, rfl, ?_⟩
    by_cases hc : Compat t.sh (b :: bt)
    · have hl : t.rank ≤ (bsh t.sh (b :: bt)).length := by rw [length_bsh]; exact le_max_left _ _
      have e : mkConst t (c :: r :: b :: bt) = .ok (.const (bcast (bsh t.sh (b :: bt)) t) r c) := by
        simp only [mkConst, bsE, if_pos hc, nBroadcastTo]
        simp [hc.fits_left, hl, bind, Except.bind, pure, Except.pure]
      refine Or.inr ⟨_, e, ⟨bsh t.sh (b :: bt), Fits.refl _⟩, rfl, rfl, ?_⟩
      intro β i j hβ hi hj
      have : (den (.const (bcast (bsh t.sh (b :: bt)) t) r c)).at' β i j = (bcast (bsh t.sh (b :: bt)) t).get β :=
        at_constM hβ (Fits.refl _) hi hj
      rw [this, bcast_get hβ (Fits.refl _) hc.fits_left]
    · refine Or.inl ⟨hc, ?_⟩
      simp [mkConst, bsE, hc, bind, Except.bind]

/-- When the arguments of LowRank compose: `left` has as many columns as `middle` rows, `right` as many columns as `middle` has. -/
def LowRankOk (l : Mat K) (r m : Option (Mat K)) : Prop :=
  2 ≤ (den l).rank ∧
  (∀ m', m = some m' → 2 ≤ (den m').rank ∧ (den l).cols = (den m').rows) ∧
  (∀ r', r = some r' → 2 ≤ (den r').rank ∧ (den r').cols = match m with | some m' => (den m').cols | none => (den l).cols)

/-- C29, LowRank: it is built exactly from arguments that compose, AssertionError otherwise; `right` defaults to `left` and `middle` to the identity.-/
theorem C29_lowrank {l : Mat K} {r m : Option (Mat K)} (hl : l.Valid) (hr : ∀ r', r = some r' → r'.Valid) (hm : ∀ m', m = some m' → m'.Valid) :
    (LowRankOk l r m ∧ mkLowRank l r m = .ok (.lr l (r.getD l) (m.getD (.diag (fillT [(den l).cols] 1))))) ∨
    (¬ LowRankOk l r m ∧ mkLowRank l r m = .error .assertion) := by
  have sl := hl.own.shapeMatrix
  have rl := hl.own.rankM
  have assertM : ∀ a : Mat K, a.Valid → assertMatrix a = if 2 ≤ (den a).rank then .ok () else .error .assertion := by
    intro a ha
    unfold assertMatrix guardE
    rw [ha.own.rankM]; rfl
  unfold mkLowRank LowRankOk
  rw [assertM l hl]
  by_cases h1 : 2 ≤ (den l).rank
  swap
  · right; exact ⟨fun h => h1 h.1, by simp [h1, bind, Except.bind]⟩
  cases m with
  | none =>
    cases r with
    | none => left; simp [h1, bind, Except.bind, pure, Except.pure, sl, fillDiag_one]
    | some r =>
      have vr := hr r rfl
      simp only [assertM r vr, vr.own.shapeMatrix, sl]
      by_cases h2 : 2 ≤ (den r).rank
      · by_cases h3 : (den r).cols = (den l).cols
        · left; simp [h1, h2, h3, bind, Except.bind, pure, Except.pure, guardE, fillDiag_one]
        · right; simp [h1, h2, h3, bind, Except.bind, pure, Except.pure, guardE]
      · right; simp [h1, h2, bind, Except.bind, pure, Except.pure]
  | some m =>
    have vm := hm m rfl
    simp only [assertM m vm, vm.own.shapeMatrix, sl]
    by_cases h4 : 2 ≤ (den m).rank
    swap
    · right; simp [h1, h4, bind, Except.bind]
    by_cases h5 : (den l).cols = (den m).rows
    swap
    · right; simp [h1, h4, h5, bind, Except.bind, guardE]
    cases r with
    | none => left; simp [h1, h4, h5, bind, Except.bind, pure, Except.pure, guardE]
    | some r =>
      have vr := hr r rfl
      simp only [assertM r vr, vr.own.shapeMatrix]
      by_cases h2 : 2 ≤ (den r).rank
      · by_cases h3 : (den r).cols = (den m).cols
        · left; simp [h1, h2, h3, h4, h5, bind, Except.bind, pure, Except.pure, guardE]
        · right; simp [h1, h2, h3, h4, h5, bind, Except.bind, pure, Except.pure, guardE]
      · right; simp [h1, h2, h4, h5, bind, Except.bind, pure, Except.pure, guardE]

/-- The matrix built is well formed if all batch shapes are compatible and a middle factor given without a right factor is square. -/
theorem C29_lowrank_wf {l x : Mat K} {r m : Option (Mat K)} {S : Shp} (hl : l.WF S) (hr : ∀ r', r = some r' → r'.WF S) (hm : ∀ m', m = some m' → m'.WF S)
    (hsq : r = none → ∀ m', m = some m' → (den m').rows = (den m').cols) (h : mkLowRank l r m = .ok x) : x.WF S := by
  rcases C29_lowrank hl.valid (fun r' e => (hr r' e).valid) (fun m' e => (hm m' e).valid) with ⟨⟨h1, h2, h3⟩, e⟩ | ⟨_, e⟩
  swap
  · rw [e] at h; simp at h
  rw [e] at h
  simp only [Except.ok.injEq] at h
  subst h
  have hI : (Mat.diag (fillT [(den l).cols] (1 : K))).WF S := ⟨le_refl _, Fits.nil _⟩
  have hI2 : (den (Mat.diag (fillT [(den l).cols] (1 : K)))).sh = [(den l).cols, (den l).cols] := rfl
  cases m with
  | none =>
    cases r with
    | none => exact ⟨⟨hl, hl, hI⟩, ⟨h1, h1, le_refl _⟩, rfl, rfl⟩
    | some r =>
      obtain ⟨h4, h5⟩ := h3 r rfl
      exact ⟨⟨hl, hr r rfl, hI⟩, ⟨h1, h4, le_refl _⟩, rfl, h5⟩
  | some m =>
    obtain ⟨h6, h7⟩ := h2 m rfl
    cases r with
    | none => exact ⟨⟨hl, hl, hm m rfl⟩, ⟨h1, h1, h6⟩, h7, h7.trans (hsq rfl m rfl)⟩
    | some r =>
      obtain ⟨h4, h5⟩ := h3 r rfl
      exact ⟨⟨hl, hr r rfl, hm m rfl⟩, ⟨h1, h4, h6⟩, h7, h5⟩

/-- C29 fails there: without a right factor, the columns of the middle factor are not checked.
`LowRank(left=3 × 2, middle=2 × 3)` is accepted although no product `left @ middle @ left.T` exists. -/
theorem C29_lowrank_unchecked : ∃ (l m x : Mat ℚ), l.Valid ∧ m.Valid ∧ mkLowRank l none (some m) = .ok x ∧
    (den l).cols ≠ (den m).cols ∧ ¬ x.Valid := by
  refine ⟨.num (Ex.m 3 2 [1, 2, 3, 4, 5, 6]), .num (Ex.m 2 3 [1, 2, 3, 4, 5, 6]), _, ⟨[], Ex.num_wf _ _ _ _⟩, ⟨[], Ex.num_wf _ _ _ _⟩, rfl,
    by decide, ?_⟩
  rintro ⟨S, _, _, _, h⟩
  exact absurd h (by decide)

/-- C29, Woodbury: AssertionError exactly if the shapes of the parts do not broadcast. -/
theorem C29_woodbury {d : Tensor K} {l r m : Mat K} (hd : (Mat.diag d).Valid) (h : (Mat.lr l r m).Valid) :
    mkWB d l r m = if Compat (den (.diag d : Mat K)).sh (den (.lr l r m)).sh then .ok (.wb d l r m) else .error .assertion := by
  unfold mkWB assertCompatible guardE
  rw [hd.own.shape, h.own.shape]
  simp only [bind, Except.bind]
  split_ifs <;> rfl

/-- C29, Dense: never raises on an array; a scalar is a 1 × 1 matrix, a vector one column. -/
theorem C29_dense (t : Tensor K) : (mkDense t).Valid ∧ (mkDense t).kind = some .dense ∧
    (den (mkDense t)).sh = (if t.rank = 0 then [1, 1] else if t.rank = 1 then [1, t.cols] else t.sh) ∧
    (2 ≤ t.rank → den (mkDense t) = t) := by
  refine ⟨⟨(upT t).bt, upT_rank t, Fits.refl _⟩, rfl, ?_, fun h => upT_of_rank h⟩
  show (upT t).sh = _
  unfold upT
  split_ifs with h0 h1
  · have : t.sh = [] := List.eq_nil_of_length_eq_zero h0
    simp [expandEnd_sh, this]
  · have : t.sh = [t.cols] := by
      obtain ⟨d, hd⟩ := List.length_eq_one_iff.1 h1
      simp [Tensor.cols, hd]
    simp [expandEnd_sh, this]
  · rfl

/-- C29, LowerTriangular, UpperTriangular and Dense of a matrix: the matrix itself, made dense. -/
theorem C29_of_matrix (c : Cfg K) {a r : Mat K} (ha : a.Valid) (h2 : 2 ≤ (den a).rank) :
    (Returns c (fun B => mkLTOf B a) r → Exact c (fun B => mkLTOf B a) → r = .lt (den a)) ∧
    (Returns c (fun B => mkUTOf B a) r → Exact c (fun B => mkUTOf B a) → r = .ut (den a)) ∧
    (Returns c (fun B => mkDenseOf B a) r → Exact c (fun B => mkDenseOf B a) → r = .dense (den a)) := by
  refine ⟨fun hr hx => ?_, fun hr hx => ?_, fun hr hx => ?_⟩
  · obtain ⟨n, h⟩ := hr.strict hx
    simp only [mkLTOf, bind_ok_iff, pure_eq_ok, Except.ok.injEq] at h
    obtain ⟨_, _, t, ht, rfl⟩ := h
    obtain rfl := (c.ok n).dense ha.own ht
    rfl
  · obtain ⟨n, h⟩ := hr.strict hx
    simp only [mkUTOf, bind_ok_iff, pure_eq_ok, Except.ok.injEq] at h
    obtain ⟨_, _, t, ht, rfl⟩ := h
    obtain rfl := (c.ok n).dense ha.own ht
    rfl
  · obtain ⟨n, h⟩ := hr.strict hx
    simp only [mkDenseOf, bind_ok_iff, pure_eq_ok, Except.ok.injEq] at h
    obtain ⟨t, ht, rfl⟩ := h
    obtain rfl := (c.ok n).dense ha.own ht
    exact congrArg Mat.dense (upT_of_rank h2)

end Verif
