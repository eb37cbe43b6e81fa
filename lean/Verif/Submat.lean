/-
C14.  `B.submatrix`.
-/
import Verif.Take

set_option linter.unusedSectionVars false

namespace Verif

variable {K : Type} [Field K] [LinearOrder K]

/-! ### The model -/

/-- `B.submatrix` on numeric tensors (LAB): `take` along the rows, then along the columns. -/
def nSubmatrix (t : Tensor K) (sel : Sel) : E (Tensor K) := do
  let u ← nTakeSel t sel (-2)
  nTakeSel u sel (-1)

/-- `submatrix(a: LowRank, sel)`, `ops/submatrix.py` 68-74. -/
def submatrixLR (B : Ops K) (m' : ℕ) (l r m : Mat K) (sel : Sel) : E (Mat K) := do
  let x ← takeM B m' l sel (-2)
  let y ← takeM B m' r sel (-2)
  mkLR x y m

/-- `B.submatrix(a, sel)`, `ops/submatrix.py`, where `B.take` makes at most `m'` nested calls. -/
def submatrixM (B : Ops K) (m' : ℕ) (a : Mat K) (sel : Sel) : E (Mat K) :=
  match a with
  | .num t => do return .num (← nSubmatrix t sel)
  | .zero bt _ _ => mkZero (sel.count :: sel.count :: bt)  -- 39-43
  | .diag d => do mkDiag (← nTakeSel d sel (-1))  -- 46-48
  | .const t _ _ => mkConst t (sel.count :: sel.count :: t.sh)  -- 51-55
  | .lt t => do mkLT (← nSubmatrix t sel)  -- 58-60
  | .ut t => do mkUT (← nSubmatrix t sel)  -- 63-65
  | .lr l r m => submatrixLR B m' l r m sel  -- 68-74
  | .wb d l r m => do  -- 77-82
    let d' ← nTakeSel d sel (-1)
    guardE (1 ≤ d'.rank) .assertion
    let y ← submatrixLR B m' l r m sel
    match y with
    | .lr l' r' m' => mkWB d' l' r' m'
    | _ => .error .notFound
  | a => do return mkDense (← nSubmatrix (← B.dense a) sel)  -- 28-36

/-! ### Specification -/

/-- `r` is the matrix of the rows `js` and the columns `js'` of `a`, in every batch element. -/
structure IsSubmatrix (js js' : List ℕ) (a r : Tensor K) : Prop where
  shape : r.sh = js'.length :: js.length :: a.bt
  entries : ∀ β i j, InRange a.bt β → i < js.length → j < js'.length → r.at' β i j = a.at' β (js.getD i 0) (js'.getD j 0)

/-- No position is selected twice from a diagonal; rows of LowRank factors can be taken (see `Mat.takeOk`). -/
def Mat.subOk : Mat K → List ℕ → Prop
  | .diag _, js => js.Nodup
  | .lr l r _, _ => l.takeOk 1 ∧ r.takeOk 1
  | .wb _ l r _, js => js.Nodup ∧ l.takeOk 1 ∧ r.takeOk 1
  | _, _ => True

/-- The positions selected from a triangular matrix are in order. -/
def Mat.triOk : Mat K → List ℕ → Prop
  | .lt _, js => js.Pairwise (· < ·)
  | .ut _, js => js.Pairwise (· < ·)
  | _, _ => True

/-! ### Proofs -/

theorem takeBoth_rep {S : Shp} {t : Tensor K} {js js' : List ℕ} (h2 : 2 ≤ t.rank) (hS : Fits S t.bt) (h1 : ∀ j ∈ js, j < t.rows) (h0 : ∀ j ∈ js', j < t.cols) :
    Rep S js.length js'.length (takeAx 0 js' (takeAx 1 js t)) fun β i j => t.at' β (js.getD i 0) (js'.getD j 0) :=
  ((Rep.self h2 hS).takeRow js h1).takeCol js' h0

theorem takeBoth_bt {t : Tensor K} {js js' : List ℕ} (h2 : 2 ≤ t.rank) : (takeAx 0 js' (takeAx 1 js t)).bt = t.bt := by
  have e := takeAx_small_sh (t := t) (k := 1) (js := js) h2 (by omega)
  have k : 2 ≤ (takeAx 1 js t).rank := by simp [Tensor.rank, e]
  have e' := takeAx_small_sh (t := takeAx 1 js t) (k := 0) (js := js') k (by omega)
  show List.drop 2 _ = _
  rw [e']
  show List.drop 2 (takeAx 1 js t).sh = _
  rw [e]; rfl

theorem IsSubmatrix.of_eq {js js' : List ℕ} {a r : Tensor K} (h2 : 2 ≤ a.rank) (h1 : ∀ j ∈ js, j < a.rows) (h0 : ∀ j ∈ js', j < a.cols)
    (h : r = takeAx 0 js' (takeAx 1 js a)) : IsSubmatrix js js' a r := by
  subst h
  have R := takeBoth_rep h2 (Fits.refl _) h1 h0
  exact ⟨by rw [R.sh, takeBoth_bt h2], fun β i j hβ hi hj => R.at' β i j hβ hi hj⟩

theorem nSubmatrix_ok {t v : Tensor K} {sel : Sel} {js js' : List ℕ} (h2 : 2 ≤ t.rank) (h1 : sel.Picks t.rows js) (h0 : sel.Picks t.cols js')
    (h : nSubmatrix t sel = .ok v) : v = takeAx 0 js' (takeAx 1 js t) := by
  simp only [nSubmatrix, bind_ok_iff] at h
  obtain ⟨u, hu, h⟩ := h
  obtain rfl := nTakeSel_ok (k := 1) (axPos_negAxis (k := 1) (by omega)) (by rw [dim_rows h2]; exact h1) hu
  have e := takeAx_small_sh (t := t) (k := 1) (js := js) h2 (by omega)
  have k : 2 ≤ (takeAx 1 js t).rank := by simp [Tensor.rank, e]
  exact nTakeSel_ok (k := 0) (axPos_negAxis (k := 0) (by omega)) (by rw [dim_cols k, takeAx_cols h2 (by omega)]; exact h0) h

theorem takeVec_sh {d : Tensor K} (h1 : 1 ≤ d.rank) (js : List ℕ) : (takeAx 0 js d).sh = js.length :: d.sh.tail := by
  rw [takeAx, ofFn_sh]; conv_lhs => rw [Tensor.sh_eq_vec h1]
  rfl

theorem getD_get {js : List ℕ} {i : ℕ} (h : i < js.length) : js.getD i 0 = js[i] := by
  rw [List.getD_eq_getElem?_getD, List.getElem?_eq_getElem h]; rfl

/-- A diagonal matrix of selected entries is the submatrix if no entry is selected twice. -/
theorem diagC_take {d : Tensor K} {js : List ℕ} (h1 : 1 ≤ d.rank) (hjs : ∀ j ∈ js, j < d.cols) (hn : js.Nodup) :
    diagC (takeAx 0 js d) = takeAx 0 js (takeAx 1 js (diagC d)) := by
  have e := takeVec_sh h1 js
  have R := takeBoth_rep (t := diagC d) (S := d.sh.tail) (js := js) (js' := js) (by simp [Tensor.rank]) (Fits.refl _) hjs hjs
  have eb : (takeAx 0 js (takeAx 1 js (diagC d))).bt = d.sh.tail := takeBoth_bt (by simp [Tensor.rank])
  refine Tensor.ext_mat (bt := d.sh.tail) (r := js.length) (c := js.length) (by rw [diagC_sh, Tensor.cols, e]; rfl) (by rw [R.sh, eb]) ?_
  intro β i j hβ hi hj
  rw [R.at' β i j hβ hi hj, at_diagC hβ (by rw [e]; exact Fits.refl _) (by rw [Tensor.cols, e]; exact hi) (by rw [Tensor.cols, e]; exact hj),
    at_diagC hβ (Fits.refl _) (getD_lt' hjs hi) (getD_lt' hjs hj)]
  by_cases hij : i = j
  · subst hij
    rw [if_pos rfl, if_pos rfl]
    unfold Tensor.vat
    have hs : d.sh.set 0 js.length = js.length :: d.sh.tail := e
    rw [takeAx_get (by rw [hs]; simp [hi, hβ])]
    congr 1
    funext k
    rcases k with _ | k <;> simp
  · rw [if_neg hij, if_neg]
    rw [getD_get hi, getD_get hj]
    exact fun h => hij ((hn.getElem_inj_iff).1 h)

theorem submatrixLR_ok {B : Ops K} (hB : B.Ok) {S : Shp} {m' : ℕ} {l r m x : Mat K} {sel : Sel} {js js' : List ℕ} (ha : Mat.WF S (.lr l r m))
    (ho : l.takeOk 1 ∧ r.takeOk 1) (h1 : sel.Picks (den l).rows js) (h0 : sel.Picks (den r).rows js') (h : submatrixLR B m' l r m sel = .ok x) :
    x.WF S ∧ den x = takeAx 0 js' (takeAx 1 js (den (.lr l r m))) ∧ ∃ l' r', x = .lr l' r' m := by
  obtain ⟨⟨hl, hr, hm⟩, ⟨kl, kr, km⟩, e1, e2⟩ := ha
  have gl := hl.good kl; have gr := hr.good kr; have gm := hm.good km
  simp only [submatrixLR, bind_ok_iff] at h
  obtain ⟨y, hy, z, hz, h⟩ := h
  obtain ⟨wy, ey⟩ := takeM_mat_ok hB m' (by omega) hl kl (axPos_negAxis (k := 1) (by omega)) ho.1 (by rw [dim_rows kl]; exact h1) hy
  obtain ⟨wz, ez⟩ := takeM_mat_ok hB m' (by omega) hr kr (axPos_negAxis (k := 1) (by omega)) ho.2 (by rw [dim_rows kr]; exact h0) hz
  obtain ⟨rfl, w⟩ := mkLR_inv wy wz hm h
  refine ⟨w, ?_, y, z, rfl⟩
  have l1 := Sel.picks_lt h1
  have l0 := Sel.picks_lt h0
  show mm (mm (den y) (den m)) (tr (den z)) = takeAx 0 js' (takeAx 1 js (mm (mm (den l) (den m)) (tr (den r))))
  have gl' : Good S (takeAx 1 js (den l)) := by rw [← ey]; exact wy.good (by rw [ey, Tensor.rank, takeAx_small_sh kl (by omega)]; simp)
  have c1 : (takeAx 1 js (den l)).cols = (den m).rows := by rw [takeAx_cols kl (by omega)]; exact e1
  rw [takeRow_mm (S := S) (gl.mm gm) gr.tr e2.symm l1, takeRow_mm (S := S) gl gm e1 l1, takeCol_mm (S := S) (gl'.mm gm) gr.tr e2.symm l0, takeCol_tr kr l0, ey, ez]

theorem submatrixM_ok {B : Ops K} (hB : B.Ok) {S : Shp} {m' : ℕ} {a x : Mat K} {sel : Sel} {js js' : List ℕ} (ha : a.WF S) (h2 : 2 ≤ (den a).rank)
    (ho : a.subOk js) (h1 : sel.Picks (den a).rows js) (h0 : sel.Picks (den a).cols js') (h : submatrixM B m' a sel = .ok x) :
    den x = takeAx 0 js' (takeAx 1 js (den a)) ∧ (a.triOk js → x.WF S) := by
  have l1 := Sel.picks_lt h1
  have l0 := Sel.picks_lt h0
  have R := takeBoth_rep h2 ha.fits l1 l0
  have dense : ∀ {t v : Tensor K}, t = den a → nSubmatrix t sel = .ok v → den (mkDense v) = takeAx 0 js' (takeAx 1 js (den a)) ∧ (a.triOk js → (mkDense v).WF S) := by
    rintro t v rfl hv
    rw [nSubmatrix_ok h2 h1 h0 hv]
    exact ⟨(mkDense_wf R.good).2, fun _ => (mkDense_wf R.good).1⟩
  cases a with
  | num t =>
    simp only [submatrixM, bind_ok_iff, pure_eq_ok] at h
    obtain ⟨v, hv, rfl⟩ := h
    obtain rfl := nSubmatrix_ok h2 h1 h0 hv
    exact ⟨rfl, fun _ => ⟨by have := R.rank; show (takeAx 0 js' (takeAx 1 js (den (.num t)))).rank ≠ 1; omega, R.bt⟩⟩
  | zero bt r c =>
    simp only [submatrixM, mkZero, Except.ok.injEq] at h
    subst h
    rw [← Sel.picks_count h1]
    refine ⟨?_, fun _ => ha⟩
    have e : js'.length = js.length := by rw [Sel.picks_count h1, Sel.picks_count h0]
    have h1' : ∀ j ∈ js, j < r := l1
    have h0' : ∀ j ∈ js', j < c := l0
    show fillT _ _ = takeAx 0 js' (takeAx 1 js (fillT _ _))
    rw [takeAx_fill (s := c :: r :: bt) (k := 1) (by simp) h1', takeAx_fill (s := (c :: r :: bt).set 1 js.length) (k := 0) (by simp) h0']
    simp [e]
  | dense t =>
    simp only [submatrixM, bind_ok_iff, pure_eq_ok] at h
    obtain ⟨d, hd, v, hv, rfl⟩ := h
    exact dense (hB.dense ha hd) hv
  | diag d =>
    simp only [submatrixM, bind_ok_iff, mkDiag_ok] at h
    obtain ⟨v, hv, hr, rfl⟩ := h
    have k1 : 1 ≤ d.rank := ha.1
    obtain rfl : js = js' := Sel.picks_unique h1 h0
    have dc : dim d.sh 0 = d.cols := rfl
    obtain rfl := nTakeSel_ok (k := 0) (axPos_negAxis (k := 0) (by omega)) (by rw [dc]; exact h1) hv
    exact ⟨diagC_take k1 l1 ho, fun _ => ⟨hr, by rw [takeVec_sh k1]; exact ha.2⟩⟩
  | const t r c =>
    simp only [submatrixM] at h
    obtain ⟨-, rfl⟩ := mkConst_ok h
    rw [bsh_self, bcast_self]
    refine ⟨?_, fun _ => ha⟩
    have eb : (takeAx 0 js' (takeAx 1 js (constM t r c))).bt = t.sh := takeBoth_bt (by simp [Tensor.rank])
    have P : Rep t.sh sel.count sel.count (constM t sel.count sel.count) _ := Rep.constM (Fits.refl _) _ _
    have Q := takeBoth_rep (t := constM t r c) (S := t.sh) (js := js) (js' := js') (by simp [Tensor.rank]) (Fits.refl _) l1 l0
    rw [Sel.picks_count h1, Sel.picks_count h0] at Q
    refine Rep.ext (a := constM t sel.count sel.count) P Q eb.symm fun β i j hβ hi hj => ?_
    exact (at_constM hβ (Fits.refl _) (getD_lt' l1 (by rw [Sel.picks_count h1]; exact hi)) (getD_lt' l0 (by rw [Sel.picks_count h0]; exact hj))).symm
  | lt t =>
    simp only [submatrixM, bind_ok_iff, mkLT_ok] at h
    obtain ⟨v, hv, hr, rfl⟩ := h
    obtain rfl : v = takeAx 0 js' (takeAx 1 js t) := nSubmatrix_ok h2 h1 h0 hv
    refine ⟨rfl, fun ht => ?_⟩
    obtain ⟨k2, hf, hsq, htri⟩ := ha
    have h0' : sel.Picks t.rows js' := by rw [hsq]; exact h0
    obtain rfl : js = js' := Sel.picks_unique h1 h0'
    have R := takeBoth_rep (t := t) (S := t.bt) k2 (Fits.refl _) l1 l0
    have hb : (takeAx 0 js (takeAx 1 js t)).bt = t.bt := takeBoth_bt k2
    refine ⟨hr, by rw [hb]; exact hf, by rw [R.rows, R.cols], ?_⟩
    intro β i j hβ hi hj hij
    rw [hb] at hβ; rw [R.rows] at hi; rw [R.cols] at hj
    rw [R.at' β i j hβ hi hj]
    refine htri β _ _ hβ (getD_lt' l1 hi) (getD_lt' l0 hj) ?_
    rw [getD_get hi, getD_get hj]
    exact List.pairwise_iff_getElem.1 ht i j hi hj hij
  | ut t =>
    simp only [submatrixM, bind_ok_iff, mkUT_ok] at h
    obtain ⟨v, hv, hr, rfl⟩ := h
    obtain rfl : v = takeAx 0 js' (takeAx 1 js t) := nSubmatrix_ok h2 h1 h0 hv
    refine ⟨rfl, fun ht => ?_⟩
    obtain ⟨k2, hf, hsq, htri⟩ := ha
    have h0' : sel.Picks t.rows js' := by rw [hsq]; exact h0
    obtain rfl : js = js' := Sel.picks_unique h1 h0'
    have R := takeBoth_rep (t := t) (S := t.bt) k2 (Fits.refl _) l1 l0
    have hb : (takeAx 0 js (takeAx 1 js t)).bt = t.bt := takeBoth_bt k2
    refine ⟨hr, by rw [hb]; exact hf, by rw [R.rows, R.cols], ?_⟩
    intro β i j hβ hi hj hij
    rw [hb] at hβ; rw [R.rows] at hi; rw [R.cols] at hj
    rw [R.at' β i j hβ hi hj]
    refine htri β _ _ hβ (getD_lt' l1 hi) (getD_lt' l0 hj) ?_
    rw [getD_get hi, getD_get hj]
    exact List.pairwise_iff_getElem.1 ht j i hj hi hij
  | lr l r m =>
    simp only [submatrixM] at h
    obtain ⟨w, e, _⟩ := submatrixLR_ok hB ha ho h1 h0 h
    exact ⟨e, fun _ => w⟩
  | wb d l r m =>
    simp only [submatrixM, bind_ok_iff, guardE_ok] at h
    obtain ⟨d', hd', _, k1', y, hy, h⟩ := h
    have wl := WF.lrPart ha
    have wd := WF.diagPart ha
    have hr1 : (den (.diag d)).rows = (den (.lr l r m)).rows := ha.2.2.2.2.1.symm
    have hc1 : (den (.diag d)).cols = (den (.lr l r m)).cols := ha.2.2.2.2.2.symm
    have kd : 2 ≤ (den (.diag d)).rank := wd.rank rfl
    have klr : 2 ≤ (den (.lr l r m)).rank := wl.rank rfl
    have Z := (Rep.self kd wd.fits).zipB (· + ·) (Rep.self' klr hr1.symm hc1.symm wl.fits)
    have hz1 : (den (.wb d l r m)).rows = d.cols := Z.rows
    have hz0 : (den (.wb d l r m)).cols = d.cols := Z.cols
    rw [hz1] at h1 l1
    rw [hz0] at h0 l0
    obtain rfl : js = js' := Sel.picks_unique h1 h0
    have k1 : 1 ≤ d.rank := wd.1
    obtain rfl := nTakeSel_ok (k := 0) (axPos_negAxis (k := 0) (by omega)) (show sel.Picks (dim d.sh 0) js from h1) hd'
    have hlr1 : (den l).rows = d.cols := ha.2.2.2.2.1
    have hlr2 : (den r).rows = d.cols := ha.2.2.2.2.2
    obtain ⟨wy, ey, l', r', rfl⟩ := submatrixLR_ok hB wl ho.2 (by rw [hlr1]; exact h1) (by rw [hlr2]; exact h0) hy
    have e := takeVec_sh k1 js
    have ec : (takeAx 0 js d).cols = js.length := by rw [Tensor.cols, e]; rfl
    have Q := takeBoth_rep klr wl.fits (js := js) (js' := js) (by rw [← hr1]; exact l1) (by rw [← hc1]; exact l0)
    rw [← ey] at Q
    have w : Mat.WF S (.wb (takeAx 0 js d) l' r' m) :=
      ⟨⟨k1', by rw [e]; exact wd.2⟩, wy.1, wy.2.1, wy.2.2, by rw [ec]; exact Q.rows, by rw [ec]; exact Q.cols⟩
    simp only [mkWB_ok w, Except.ok.injEq] at h
    subst h
    refine ⟨?_, fun _ => w⟩
    have ed : den (.wb d l r m) = zipB (· + ·) (den (.diag d)) (den (.lr l r m)) := rfl
    have ew : den (.wb (takeAx 0 js d) l' r' m) = zipB (· + ·) (diagC (takeAx 0 js d)) (den (.lr l' r' m)) := rfl
    have kt : ∀ {t : Tensor K}, 2 ≤ t.rank → 2 ≤ (takeAx 1 js t).rank := fun h2 => by rw [Tensor.rank, takeAx_small_sh h2 (by omega)]; simp
    have bt' : ∀ {t : Tensor K}, 2 ≤ t.rank → (takeAx 1 js t).bt = t.bt := fun {t} h2 => by show List.drop 2 (takeAx 1 js t).sh = _; rw [takeAx_small_sh h2 (by omega)]; rfl
    rw [ed, ew, ey, diagC_take k1 l1 ho.1, takeAx_zip kd klr (wd.fits.compat wl.fits) hr1 hc1 (by omega) (by rw [dim_rows kd]; exact l1),
      takeAx_zip (kt kd) (kt klr) (by rw [bt' kd, bt' klr]; exact wd.fits.compat wl.fits)
        (by rw [takeAx_rows kd (by omega), takeAx_rows klr (by omega), hr1]) (by rw [takeAx_cols kd (by omega), takeAx_cols klr (by omega), hc1]) (by omega)
        (by rw [dim_cols (kt kd), takeAx_cols kd (by omega)]; exact l0)]
    rfl
  | kron l r =>
    simp only [submatrixM, bind_ok_iff, pure_eq_ok] at h
    obtain ⟨d, hd, v, hv, rfl⟩ := h
    exact dense (hB.dense ha hd) hv
  | tiled n blk reps ax =>
    simp only [submatrixM, bind_ok_iff, pure_eq_ok] at h
    obtain ⟨d, hd, v, hv, rfl⟩ := h
    exact dense (hB.dense ha hd) hv

theorem Calls.submatrix (m : ℕ) (a : Mat K) (sel : Sel) : Calls fun B : Ops K => submatrixM B m a sel := by
  intro bad B C h
  have ht : ∀ a ax, Below bad (takeM B m a sel ax) (takeM C m a sel ax) := fun a ax => Calls.take m a sel ax _ _ _ h
  have hlr : ∀ l r x, Below bad (submatrixLR B m l r x sel) (submatrixLR C m l r x sel) := fun l r x =>
    (ht _ _).bind fun _ => (ht _ _).bind fun _ => .refl _
  cases a <;> simp only [submatrixM] <;> below
  all_goals first | exact hlr _ _ _ | exact h.dense _

/-! ### C14 -/

/-- C14.  `B.submatrix(a, sel)` consists of the selected rows and columns, in that order.
(`js` and `js'` are the selected rows and columns: they differ only for negative indices into a matrix that is not square.) -/
theorem C14_submatrix (c : Cfg K) {a r : Mat K} {sel : Sel} {m : ℕ} {js js' : List ℕ} (ha : a.Valid) (h2 : 2 ≤ (den a).rank) (ho : a.subOk js)
    (h1 : sel.Picks (den a).rows js) (h0 : sel.Picks (den a).cols js') (hr : Returns c (fun B => submatrixM B m a sel) r)
    (hx : Exact c fun B => submatrixM B m a sel) : IsSubmatrix js js' (den a) (den r) ∧ (a.triOk js → r.Valid) := by
  obtain ⟨n, h⟩ := hr.strict hx
  obtain ⟨e, w⟩ := submatrixM_ok (c.ok n) ha.own h2 ho h1 h0 h
  exact ⟨IsSubmatrix.of_eq h2 (Sel.picks_lt h1) (Sel.picks_lt h0) e, fun ht => ⟨_, w ht⟩⟩

/-- The hypotheses are met by a Woodbury matrix and permuted indices. -/
example : Ex.W.Valid ∧ Ex.W.subOk [1, 0] ∧ (Sel.idx [-1, 0]).Picks (den Ex.W).rows [1, 0] ∧ (Sel.idx [-1, 0]).Picks (den Ex.W).cols [1, 0] ∧
    ∃ r, Returns Ex.cfg (fun B => submatrixM B 3 Ex.W (.idx [-1, 0])) r ∧ Exact Ex.cfg fun B => submatrixM B 3 Ex.W (.idx [-1, 0]) :=
  ⟨⟨[], Ex.W_wf _⟩, ⟨by decide, trivial, trivial⟩, Sel.resolve_picks (by decide +kernel), Sel.resolve_picks (by decide +kernel),
    Ex.meets (Calls.submatrix _ _ _) (n := 8) (by decide +kernel)⟩

/-- Selecting an entry of a Diagonal matrix twice: the off-diagonal entries of the submatrix are lost. -/
theorem C14_diagonal_repeated_refuted : ∃ a r : Mat ℚ, a.Valid ∧ (Sel.idx [0, 0]).Picks 2 [0, 0] ∧ (den a).sh = [2, 2] ∧
    Exact Ex.cfg (fun B => submatrixM B 1 a (.idx [0, 0])) ∧ Returns Ex.cfg (fun B => submatrixM B 1 a (.idx [0, 0])) r ∧ ¬ IsSubmatrix [0, 0] [0, 0] (den a) (den r) := by
  let a : Mat ℚ := .diag (Ex.v [5, 7])
  obtain ⟨r, hr, hP⟩ := Ex.of_holds (P := fun r : Mat ℚ => decide ((den r).at' Ex.o 0 1 ≠ (den a).at' Ex.o 0 0)) (f := fun B => submatrixM B 1 a (.idx [0, 0])) (n := 3) (by decide +kernel)
  obtain ⟨_, _, hx⟩ := Ex.meets (Calls.submatrix 1 a (.idx [0, 0])) (n := 3) (by decide +kernel)
  refine ⟨a, r, ⟨[], by decide, Fits.nil _⟩, Sel.resolve_picks (by decide +kernel), by decide, hx, hr, fun h => ?_⟩
  simp only [decide_eq_true_eq] at hP
  exact hP (h.entries Ex.o 0 1 (fun _ => Nat.zero_lt_one) (by decide) (by decide))

/-- Permuting the rows and columns of a LowerTriangular matrix: the result is a LowerTriangular object whose data is not lower triangular. -/
theorem C14_triangular_permuted_refuted : ∃ a r : Mat ℚ, a.Valid ∧ (Sel.idx [1, 0]).Picks 2 [1, 0] ∧ (den a).sh = [2, 2] ∧
    Returns Ex.cfg (fun B => submatrixM B 1 a (.idx [1, 0])) r ∧ ∃ t, r = .lt t ∧ ¬ LowerTri t := by
  let a : Mat ℚ := .lt (Ex.m 2 2 [1, 0, 3, 4])
  obtain ⟨r, hr, hP⟩ := Ex.of_holds (P := fun r : Mat ℚ => match r with | .lt t => decide (t.sh = [2, 2] ∧ t.at' Ex.o 0 1 ≠ 0) | _ => false) (f := fun B => submatrixM B 1 a (.idx [1, 0])) (n := 3) (by decide +kernel)
  refine ⟨a, r, ⟨[], by decide, Fits.nil _, by decide, ?_⟩, Sel.resolve_picks (by decide +kernel), by decide, hr, ?_⟩
  · intro β i j hβ hi hj hij
    have hi : i < 2 := hi
    have hj : j < 2 := hj
    obtain ⟨rfl, rfl⟩ : i = 0 ∧ j = 1 := by omega
    rfl
  · cases r with
    | lt t =>
      simp only [decide_eq_true_eq] at hP
      refine ⟨t, rfl, fun h => hP.2 (h Ex.o 0 1 (fun _ => ?_) ?_ ?_ (by omega))⟩
      · rw [Tensor.bt, hP.1]; exact Nat.zero_lt_one
      · rw [Tensor.rows, hP.1]; decide
      · rw [Tensor.cols, hP.1]; decide
    | _ => simp at hP

end Verif
