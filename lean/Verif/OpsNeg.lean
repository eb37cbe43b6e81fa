/-
Negation, subtraction, division and trace.
-/
import Verif.SpecOps

set_option linter.unusedSectionVars false

namespace Verif

variable {K : Type} [Field K] [LinearOrder K]

/-! ### The model -/

/-- `B.negative(a)`, `ops/negative.py` 14-56; numeric: LAB.  No method for TiledBlocks. -/
def negativeM : Mat K → E (Mat K)
  | .num t => .ok (.num (tneg t))
  | .zero bt r c => .ok (.zero bt r c)  -- 14-16
  | .dense t => .ok (mkDense (tneg t))  -- 19-21
  | .diag t => mkDiag (tneg t)  -- 24-26
  | .const t r c => mkConst (tneg t) [c, r]  -- 29-31
  | .lt t => mkLT (tneg t)  -- 34-36
  | .ut t => mkUT (tneg t)  -- 39-41
  | .lr l r m => do mkLR l r (← negativeM m)  -- 44-46
  | .wb d l r m => do  -- 49-51
    let _ ← mkDiag (tneg d)
    let m' ← negativeM m
    let _ ← mkLR l r m'
    mkWB (tneg d) l r m'
  | .kron l r => do return .kron (← negativeM l) r  -- 54-56
  | .tiled .. => .error .notFound

/-- `B.subtract(a, b)`, `ops/subtract.py` 8-10; two numeric operands subtract in the backend, otherwise numeric operands are promoted first. -/
def subtractM (env : Env K) (B : Ops K) (a b : Mat K) : E (Mat K) :=
  match a, b with
  | .num s, .num t => do return .num (← nZip (· - ·) s t)
  | a, b => do B.add (convertAM env a) (← negativeM (convertAM env b))

/-- numpy division; an entry 0 in the divisor gives inf or nan (the ghost error `nonfinite`). -/
def nDiv (a b : Tensor K) : E (Tensor K) :=
  if Compat a.sh b.sh then
    if ∀ n < size b.sh, b.get (unlin b.sh n) ≠ 0 then .ok (zipB (· / ·) a b) else .error .nonfinite
  else .error .value

/-- `divide(a, b: Constant)`, `ops/divide.py` 21-22: multiply by `Constant(1 / const, *shape)`. -/
def divideConst (B : Ops K) (a : Mat K) (t : Tensor K) (r c : ℕ) : E (Mat K) := do
  let inv ← nDiv (scalarT 1) t
  B.mul a (← mkConst inv (c :: r :: t.sh))

/-- `B.divide(a, b)`, `ops/divide.py` 11-22. -/
def divideM (env : Env K) (B : Ops K) (a b : Mat K) : E (Mat K) :=
  match a, b with
  | .num s, .num t => do return .num (← nDiv s t)
  | a, b =>
    let a := convertAM env a
    match convertAM env b with
    | .const t r c => divideConst B a t r c
    | b => do return mkDense (← nDiv (← B.dense a) (← B.dense b))

/-- `B.trace(a)`, `ops/trace.py` 8-11. -/
def traceM (B : Ops K) (a : Mat K) : E (Tensor K) := do nSum (← B.diag a) (some (-1))

/-! ### Negation -/

section alg
variable {S : Shp}

theorem tneg_rep {r c : ℕ} {t : Tensor K} {f} (h : Rep S r c t f) : Rep S r c (tneg t) fun β i j => -f β i j := h.tmap _

@[simp] theorem tneg_sh (t : Tensor K) : (tneg t).sh = t.sh := rfl
@[simp] theorem tneg_bt (t : Tensor K) : (tneg t).bt = t.bt := rfl
@[simp] theorem tneg_rows (t : Tensor K) : (tneg t).rows = t.rows := rfl
@[simp] theorem tneg_cols (t : Tensor K) : (tneg t).cols = t.cols := rfl
@[simp] theorem tneg_rank (t : Tensor K) : (tneg t).rank = t.rank := rfl

theorem tneg_diagC {d : Tensor K} (h : 1 ≤ d.rank) : diagC (tneg d) = tneg (diagC d) := by
  have hv := VRep.self h (Fits.refl d.sh.tail)
  refine Rep.ext (Rep.diagC (VRep.tmap _ hv)) (Rep.tmap _ (Rep.diagC hv)) rfl ?_
  intro β i j _ _ _
  by_cases e : i = j <;> simp [e]

theorem tneg_constM (t : Tensor K) (r c : ℕ) : constM (tneg t) r c = tneg (constM t r c) := by
  refine Rep.ext (Rep.constM (Fits.refl _) r c) (Rep.tmap _ (Rep.constM (t := t) (Fits.refl _) r c)) rfl ?_
  intro β i j hβ _ _
  exact tmap_get _ hβ (Fits.refl _)

theorem tneg_mm_right {a b : Tensor K} (ga : Good S a) (gb : Good S b) (h : a.cols = b.rows) : mm a (tneg b) = tneg (mm a b) := by
  have hb := gb.rep
  rw [← h] at hb
  have fa : Fits (mm a (tneg b)).bt a.bt := by simp only [mm_bt, tneg_bt]; exact (ga.fits.compat gb.fits).fits_left
  have fb : Fits (mm a (tneg b)).bt b.bt := by simp only [mm_bt, tneg_bt]; exact (ga.fits.compat gb.fits).fits_right
  have ra := Rep.self ga.rank fa
  have rb := Rep.self gb.rank fb
  rw [← h] at rb
  refine Rep.ext (Rep.mm ra (rb.tmap _)) (Rep.tmap _ (Rep.mm ra rb)) rfl ?_
  intro β i j _ _ _
  simp [Finset.sum_neg_distrib]

theorem tneg_mm_left {a b : Tensor K} (ga : Good S a) (gb : Good S b) (h : a.cols = b.rows) : mm (tneg a) b = tneg (mm a b) := by
  have fa : Fits (mm (tneg a) b).bt a.bt := by simp only [mm_bt, tneg_bt]; exact (ga.fits.compat gb.fits).fits_left
  have fb : Fits (mm (tneg a) b).bt b.bt := by simp only [mm_bt, tneg_bt]; exact (ga.fits.compat gb.fits).fits_right
  have ra := Rep.self ga.rank fa
  have rb := Rep.self gb.rank fb
  rw [← h] at rb
  refine Rep.ext (Rep.mm (ra.tmap _) rb) (Rep.tmap _ (Rep.mm ra rb)) rfl ?_
  intro β i j _ _ _
  simp [Finset.sum_neg_distrib]

theorem tneg_zipB_add {a b : Tensor K} (h : Compat a.sh b.sh) : zipB (· + ·) (tneg a) (tneg b) = tneg (zipB (· + ·) a b) := by
  refine Tensor.ext_inRange rfl fun i hi => ?_
  have hi : InRange (bsh a.sh b.sh) i := hi
  rw [zipB_get (a := tneg a) (b := tneg b) _ hi h.fits_left h.fits_right, tneg, tneg, tneg, tmap_get _ hi h.fits_left, tmap_get _ hi h.fits_right,
    tmap_get _ hi (Fits.refl _), zipB_get _ hi h.fits_left h.fits_right]
  ring

theorem tneg_kronT {a b : Tensor K} (ga : Good S a) (gb : Good S b) : kronT (tneg a) b = tneg (kronT a b) := by
  have fa : Fits (kronT (tneg a) b).bt a.bt := by simp only [kronT_bt, tneg_bt]; exact (ga.fits.compat gb.fits).fits_left
  have fb : Fits (kronT (tneg a) b).bt b.bt := by simp only [kronT_bt, tneg_bt]; exact (ga.fits.compat gb.fits).fits_right
  have ra := Rep.self ga.rank fa
  have rb := Rep.self gb.rank fb
  refine Rep.ext (Rep.kronT (ra.tmap _) rb) (Rep.tmap _ (Rep.kronT ra rb)) rfl ?_
  intro β i j _ _ _
  simp

theorem tneg_tneg (t : Tensor K) : tneg (tneg t) = t :=
  Tensor.ext_inRange rfl fun i hi => by
    have hi : InRange t.sh i := hi
    rw [tneg, tmap_get (t := tneg t) _ hi (Fits.refl _), tneg, tmap_get _ hi (Fits.refl _), neg_neg]

theorem LowerTri.tneg {t : Tensor K} (h : LowerTri t) (h2 : 2 ≤ t.rank) : LowerTri (tneg t) := by
  intro β i j hβ hi hj hij
  rw [(tneg_rep (Rep.self h2 (Fits.refl _))).at' β i j hβ hi hj, h β i j hβ hi hj hij, neg_zero]

theorem UpperTri.tneg {t : Tensor K} (h : UpperTri t) (h2 : 2 ≤ t.rank) : UpperTri (tneg t) := by
  intro β i j hβ hi hj hij
  rw [(tneg_rep (Rep.self h2 (Fits.refl _))).at' β i j hβ hi hj, h β i j hβ hi hj hij, neg_zero]

theorem tneg_fill (bt : Shp) (x : K) : tneg (fillT bt x) = fillT bt (-x) :=
  Tensor.ext_inRange rfl fun i hi => by
    have hi : InRange bt i := hi
    rw [tneg, tmap_get _ hi (Fits.refl _), fillT_get _ hi (Fits.refl _), fillT_get _ hi (Fits.refl _)]

end alg

/-- No TiledBlocks inside (many functions have no method for it). -/
def Mat.noTiled : Mat K → Bool
  | .lr l r m => l.noTiled && r.noTiled && m.noTiled
  | .wb _ l r m => l.noTiled && r.noTiled && m.noTiled
  | .kron l r => l.noTiled && r.noTiled
  | .tiled .. => false
  | _ => true

/-- Negation: what it returns. -/
theorem negativeM_ok {a r : Mat K} {S : Shp} (h : a.WF S) (hr : negativeM a = .ok r) :
    r.WF S ∧ den r = tneg (den a) ∧ r.kind = a.kind := by
  induction a generalizing r with
  | num t => simp only [negativeM, Except.ok.injEq] at hr; subst hr; exact ⟨h, rfl, rfl⟩
  | zero bt n m =>
    simp only [negativeM, Except.ok.injEq] at hr; subst hr
    refine ⟨h, ?_, rfl⟩
    show fillT _ 0 = tneg (fillT _ 0)
    rw [tneg_fill, neg_zero]
  | dense t =>
    simp only [negativeM, Except.ok.injEq] at hr; subst hr
    have := mkDense_wf (S := S) (t := tneg t) ⟨h.1, h.2⟩
    exact ⟨this.1, this.2, rfl⟩
  | diag t =>
    simp only [negativeM, mkDiag_ok] at hr; obtain ⟨_, rfl⟩ := hr
    exact ⟨h, tneg_diagC h.1, rfl⟩
  | const t n m =>
    simp only [negativeM, mkConst, Except.ok.injEq] at hr; subst hr
    exact ⟨h, tneg_constM _ _ _, rfl⟩
  | lt t =>
    simp only [negativeM, mkLT_ok] at hr; obtain ⟨_, rfl⟩ := hr
    exact ⟨⟨h.1, h.2.1, h.2.2.1, h.2.2.2.tneg h.1⟩, rfl, rfl⟩
  | ut t =>
    simp only [negativeM, mkUT_ok] at hr; obtain ⟨_, rfl⟩ := hr
    exact ⟨⟨h.1, h.2.1, h.2.2.1, h.2.2.2.tneg h.1⟩, rfl, rfl⟩
  | lr l r' m _ _ ihm =>
    simp only [negativeM, bind_ok_iff] at hr
    obtain ⟨m', hm', hr⟩ := hr
    obtain ⟨⟨hl, hr', hm⟩, ⟨kl, kr, km⟩, h1, h2⟩ := h
    obtain ⟨wm, em, _⟩ := ihm hm hm'
    have e1 : (den l).cols = (den m').rows := by rw [em]; exact h1
    have e2 : (den r').cols = (den m').cols := by rw [em]; exact h2
    have k' : 2 ≤ (den m').rank := by rw [em]; exact km
    rw [mkLR_ok hl hr' wm ⟨kl, kr, k'⟩ e1 e2] at hr
    simp only [Except.ok.injEq] at hr; subst hr
    have gl := hl.good kl
    have gm := hm.good km
    have gr := hr'.good kr
    refine ⟨⟨⟨hl, hr', wm⟩, ⟨kl, kr, k'⟩, e1, e2⟩, ?_, rfl⟩
    show mm (mm (den l) (den m')) (tr (den r')) = tneg (mm (mm (den l) (den m)) (tr (den r')))
    rw [em, tneg_mm_right gl gm h1, tneg_mm_left (gl.mm gm) gr.tr (by simpa using h2.symm)]
  | wb d l r' m _ _ ihm =>
    simp only [negativeM, bind_ok_iff, mkDiag_ok] at hr
    obtain ⟨_, _, m', hm', _, _, hr⟩ := hr
    obtain ⟨⟨hd1, hd2⟩, ⟨hl, hr', hm⟩, ⟨kl, kr, km⟩, ⟨h1, h2⟩, h3, h4⟩ := h
    obtain ⟨wm, em, _⟩ := ihm hm hm'
    have e1 : (den l).cols = (den m').rows := by rw [em]; exact h1
    have e2 : (den r').cols = (den m').cols := by rw [em]; exact h2
    have k' : 2 ≤ (den m').rank := by rw [em]; exact km
    have w : Mat.WF S (.wb (tneg d) l r' m') := ⟨⟨hd1, hd2⟩, ⟨hl, hr', wm⟩, ⟨kl, kr, k'⟩, ⟨e1, e2⟩, h3, h4⟩
    rw [mkWB_ok w] at hr
    simp only [Except.ok.injEq] at hr; subst hr
    have gl := hl.good kl
    have gm := hm.good km
    have gr := hr'.good kr
    refine ⟨w, ?_, rfl⟩
    show zipB (· + ·) (diagC (tneg d)) (mm (mm (den l) (den m')) (tr (den r'))) = tneg (zipB (· + ·) (diagC d) (mm (mm (den l) (den m)) (tr (den r'))))
    rw [em, tneg_mm_right gl gm h1, tneg_mm_left (gl.mm gm) gr.tr (by simpa using h2.symm), tneg_diagC hd1, tneg_zipB_add]
    have g1 : Good S (diagC d) := Good.diagC ⟨hd1, hd2⟩
    have g2 := (gl.mm gm).mm gr.tr
    rw [g1.sh, g2.sh]
    simp only [diagC_rows, diagC_cols, mm_rows, mm_cols, tr_cols]
    rw [h3, h4]
    exact compat_cons.2 ⟨Or.inr (Or.inr rfl), compat_cons.2 ⟨Or.inr (Or.inr rfl), g1.fits.compat g2.fits⟩⟩
  | kron l r' ihl _ =>
    simp only [negativeM, bind_ok_iff, pure_eq_ok] at hr
    obtain ⟨l', hl', rfl⟩ := hr
    obtain ⟨⟨hl, hr'⟩, kl, kr⟩ := h
    obtain ⟨wl, el, _⟩ := ihl hl hl'
    refine ⟨⟨⟨wl, hr'⟩, by rw [el]; exact kl, kr⟩, ?_, rfl⟩
    show kronT (den l') (den r') = tneg (kronT (den l) (den r'))
    rw [el, tneg_kronT (hl.good kl) (hr'.good kr)]
  | tiled n blk reps axis _ => simp [negativeM] at hr

/-- Negation returns on every matrix without TiledBlocks. -/
theorem negativeM_total {a : Mat K} {S : Shp} (h : a.WF S) (ht : a.noTiled = true) : ∃ r, negativeM a = .ok r := by
  induction a with
  | lr l r' m _ _ ihm =>
    simp only [Mat.noTiled, Bool.and_eq_true] at ht
    obtain ⟨⟨hl, hr', hm⟩, ⟨kl, kr, km⟩, h1, h2⟩ := h
    obtain ⟨m', hm'⟩ := ihm hm ht.2
    obtain ⟨wm, em, _⟩ := negativeM_ok hm hm'
    exact ⟨_, by simp only [negativeM, hm']; exact mkLR_ok hl hr' wm ⟨kl, kr, by rw [em]; exact km⟩ (by rw [em]; exact h1) (by rw [em]; exact h2)⟩
  | wb d l r' m _ _ ihm =>
    simp only [Mat.noTiled, Bool.and_eq_true] at ht
    obtain ⟨⟨hd1, hd2⟩, ⟨hl, hr', hm⟩, ⟨kl, kr, km⟩, ⟨h1, h2⟩, h3, h4⟩ := h
    obtain ⟨m', hm'⟩ := ihm hm ht.2
    obtain ⟨wm, em, _⟩ := negativeM_ok hm hm'
    have e1 : (den l).cols = (den m').rows := by rw [em]; exact h1
    have e2 : (den r').cols = (den m').cols := by rw [em]; exact h2
    have k' : 2 ≤ (den m').rank := by rw [em]; exact km
    have w : Mat.WF S (.wb (tneg d) l r' m') := ⟨⟨hd1, hd2⟩, ⟨hl, hr', wm⟩, ⟨kl, kr, k'⟩, ⟨e1, e2⟩, h3, h4⟩
    refine ⟨.wb (tneg d) l r' m', ?_⟩
    simp only [negativeM, bind_ok_iff, mkDiag_ok]
    exact ⟨_, ⟨hd1, rfl⟩, m', hm', _, mkLR_ok hl hr' wm ⟨kl, kr, k'⟩ e1 e2, mkWB_ok w⟩
  | kron l r' ihl _ =>
    simp only [Mat.noTiled, Bool.and_eq_true] at ht
    obtain ⟨l', hl'⟩ := ihl h.1.1 ht.1
    exact ⟨.kron l' r', by simp only [negativeM, hl']; rfl⟩
  | tiled n blk reps axis _ => simp [Mat.noTiled] at ht
  | diag t => exact ⟨_, mkDiag_ok.2 ⟨h.1, rfl⟩⟩
  | lt t => exact ⟨_, mkLT_ok.2 ⟨h.1, rfl⟩⟩
  | ut t => exact ⟨_, mkUT_ok.2 ⟨h.1, rfl⟩⟩
  | _ => exact ⟨_, rfl⟩

/-! ### Subtraction -/

theorem zipB_sub {a b : Tensor K} (h : Compat a.sh b.sh) : zipB (· + ·) a (tneg b) = zipB (· - ·) a b := by
  refine Tensor.ext_inRange rfl fun i hi => ?_
  have hi : InRange (bsh a.sh b.sh) i := hi
  rw [zipB_get (b := tneg b) _ hi h.fits_left h.fits_right, tneg, tmap_get _ hi h.fits_right, zipB_get _ hi h.fits_left h.fits_right]
  ring

theorem zipOk_num' (op : K → K → K) {s t : Tensor K} {S : Shp} (ha : Mat.WF S (.num s)) (hb : Mat.WF S (.num t)) (hc : Compat s.sh t.sh) :
    ZipOk op S (.num s) (.num t) (.num (zipB op s t)) := by
  refine ⟨⟨?_, ?_⟩, hc, rfl⟩
  · have h1 := ha.1
    have h2 := hb.1
    simp only [Tensor.rank, zipB_sh, length_bsh] at *
    omega
  · rw [zipB_bt]; exact ha.2.bsh hb.2

theorem noStretch_convert' {env : Env K} {a b : Mat K} {S : Shp} (ha : a.WF S) (hb : b.WF S) (h : NoStretch a b) :
    NoStretch (convertAM env a) (convertAM env b) := noStretch_convert ha hb h

theorem subtractM_ok {env : Env K} {B : Ops K} (hB : B.Ok) {S : Shp} {a b r : Mat K}
    (ha : a.WF S) (hb : b.WF S) (ns : NoStretch a b) (h : subtractM env B a b = .ok r) : ZipOk (· - ·) S a b r := by
  unfold subtractM at h
  split at h
  · simp only [bind_ok_iff, nZip_ok, pure_eq_ok] at h
    obtain ⟨_, ⟨hc, rfl⟩, rfl⟩ := h
    exact zipOk_num' _ ha hb hc
  · rename_i hne
    have h2 : a.isAM = true ∨ b.isAM = true := by
      cases a <;> cases b <;> simp_all [Mat.isAM]
    obtain ⟨wa, ea, aa, _, _⟩ := den_convertAM (env := env) ha
    obtain ⟨wb, eb, ab, _, _⟩ := den_convertAM (env := env) hb
    simp only [bind_ok_iff] at h
    obtain ⟨nb, hnb, h⟩ := h
    obtain ⟨wn, en, kn⟩ := negativeM_ok wb hnb
    have ns' := noStretch_convert' (env := env) ha hb ns
    have rig : nb.rigid = (convertAM env b).rigid := by
      revert kn; cases nb <;> cases convertAM env b <;> simp [Mat.kind, Mat.rigid]
    have ns2 : NoStretch (convertAM env a) nb := by
      refine ⟨fun h => ?_, fun h => ?_⟩
      · rw [en]; exact ns'.1 h
      · rw [en]; exact ns'.2 (rig ▸ h)
    have z := hB.add wa wn ns2 h
    have hc : Compat (den (convertAM env a)).sh (den (convertAM env b)).sh := by have := z.compat; rw [en] at this; exact this
    refine zipOk_convert (env := env) ha hb h2 ⟨z.wf, hc, ?_⟩
    rw [z.eq, en, zipB_sub hc]

/-! ### Division -/

theorem nDiv_ok {a b r : Tensor K} (h : nDiv a b = .ok r) : Compat a.sh b.sh ∧ (∀ i, InRange b.sh i → b.get i ≠ 0) ∧ r = zipB (· / ·) a b := by
  unfold nDiv at h
  split_ifs at h with h1 h2
  simp only [Except.ok.injEq] at h
  refine ⟨h1, fun i hi => ?_, h.symm⟩
  rw [← get_unlin_lin b hi]
  exact h2 _ (lin_lt hi)

theorem zipB_div_const {a t : Tensor K} {r c : ℕ} (hc : Compat a.sh (constM t r c).sh) :
    zipB (· * ·) a (constM (zipB (· / ·) (scalarT 1) t) r c) = zipB (· / ·) a (constM t r c) := by
  have e1 : (zipB (· / ·) (scalarT 1) t).sh = t.sh := by simp
  have e2 : (constM (zipB (· / ·) (scalarT (1 : K)) t) r c).sh = (constM t r c).sh := by simp
  have hc' : Compat a.sh (constM (zipB (· / ·) (scalarT 1) t) r c).sh := by rw [e2]; exact hc
  refine Tensor.ext_inRange (by rw [zipB_sh, zipB_sh, e2]) fun i hi => ?_
  have hi : InRange (bsh a.sh (constM t r c).sh) i := by rw [← e2]; exact hi
  rw [zipB_get _ hi hc.fits_left (by rw [e2]; exact hc.fits_right), zipB_get _ hi hc.fits_left hc.fits_right, ← mul_one_div]
  congr 1
  unfold constM mkMat
  rw [ofFn_get_fits _ hi (by rw [e1]; exact hc.fits_right), ofFn_get_fits (s := c :: r :: t.sh) _ hi hc.fits_right, e1]
  have hr : InRange t.sh (itail (itail (clip (c :: r :: t.sh) i))) := by
    have := inRange_clip (s := c :: r :: t.sh) i (Fits.pos hc.fits_right hi.pos)
    intro k
    exact this (k+2)
  show (zipB (· / ·) (scalarT 1) t).get (itail (itail (clip (c :: r :: t.sh) i))) = 1 / t.get (itail (itail (clip (c :: r :: t.sh) i)))
  rw [zipB_get _ hr (by exact Fits.nil _) (Fits.refl _), scalarT_get]

theorem isAM_of_not_num {a b : Mat K} (h : ∀ x y : Tensor K, a = .num x → b = .num y → False) : a.isAM = true ∨ b.isAM = true := by
  cases a with
  | num x =>
    cases b with
    | num y => exact (h x y rfl rfl).elim
    | _ => exact .inr rfl
  | _ => exact .inl rfl

theorem divideM_ok {env : Env K} {B : Ops K} (hB : B.Ok) {S : Shp} {a b r : Mat K}
    (ha : a.WF S) (hb : b.WF S) (ns : NoStretch a b) (h : divideM env B a b = .ok r) :
    ZipOk (· / ·) S a b r ∧ ∀ i, InRange (den b).sh i → (den b).get i ≠ 0 := by
  have up : ∀ b : Mat K, b.WF S → (∀ i, InRange (upT (den b)).sh i → (upT (den b)).get i ≠ 0) → ∀ i, InRange (den b).sh i → (den b).get i ≠ 0 := by
    intro b hb h i hi
    obtain ⟨e1, e2⟩ := upT_props (WF.rank_ne_one hb)
    rw [← e1]
    exact h i fun k => by rw [e2]; exact hi k
  unfold divideM at h
  split at h
  · simp only [bind_ok_iff, pure_eq_ok] at h
    obtain ⟨_, h1, rfl⟩ := h
    obtain ⟨hc, h0, rfl⟩ := nDiv_ok h1
    exact ⟨zipOk_num' _ ha hb hc, h0⟩
  · rename_i hne
    have h2 : a.isAM = true ∨ b.isAM = true := isAM_of_not_num hne
    obtain ⟨wa, ea, aa, _, _⟩ := den_convertAM (env := env) ha
    obtain ⟨wb, eb, ab, _, _⟩ := den_convertAM (env := env) hb
    have ns' := noStretch_convert' (env := env) ha hb ns
    suffices hz : ZipOk (· / ·) S (convertAM env a) (convertAM env b) r ∧ ∀ i, InRange (den (convertAM env b)).sh i → (den (convertAM env b)).get i ≠ 0 by
      exact ⟨zipOk_convert (env := env) ha hb h2 hz.1, up b hb (by rw [← eb]; exact hz.2)⟩
    dsimp only at h
    split at h
    · rename_i t n m e
      rw [e] at wb ns' ⊢
      unfold divideConst at h
      simp only [bind_ok_iff] at h
      obtain ⟨inv, h1, c', h3, h4⟩ := h
      obtain ⟨_, h0, rfl⟩ := nDiv_ok h1
      have e1 : (zipB (· / ·) (scalarT 1) t).sh = t.sh := by simp
      rw [← e1, mkConst_self] at h3
      simp only [Except.ok.injEq] at h3
      subst h3
      have wc : Mat.WF S (.const (zipB (· / ·) (scalarT 1) t) n m) := by show Fits S _; rw [e1]; exact wb
      have nsc : MulSafe (convertAM env a) (.const (zipB (· / ·) (scalarT 1) t) n m) :=
        ⟨⟨ns'.1, fun h => by simp [Mat.rigid] at h⟩, fun _ => trivial, fun h => by simp [Mat.readsDiag] at h⟩
      have z := hB.mul wa wc nsc h4
      have hc : Compat (den (convertAM env a)).sh (constM t n m).sh := by
        have := z.compat
        simp only [den, constM_sh, e1] at this
        exact this
      refine ⟨⟨z.wf, hc, ?_⟩, ?_⟩
      · rw [z.eq]; exact zipB_div_const hc
      · intro i hi
        show (constM t n m).get i ≠ 0
        unfold constM mkMat
        rw [ofFn_get _ (by exact hi)]
        exact h0 _ fun k => hi (k+2)
    · simp only [bind_ok_iff, pure_eq_ok] at h
      obtain ⟨x, hx, y, hy, z, hz, rfl⟩ := h
      obtain rfl := hB.dense wa hx
      obtain rfl := hB.dense wb hy
      obtain ⟨hc, h0, rfl⟩ := nDiv_ok hz
      have ga := wa.good (wa.rank aa)
      have gb := wb.good (wb.rank ab)
      have g := mkDense_wf (Good.zipB (· / ·) ga gb)
      exact ⟨⟨g.1, hc, g.2⟩, h0⟩

/-! ### Calls -/

theorem Calls.subtract (env : Env K) (a b : Mat K) : Calls fun B : Ops K => subtractM env B a b := by
  intro bad B C h
  unfold subtractM
  split
  · exact .refl _
  · exact Below.bind (.refl _) fun x => h.add _ _

theorem Calls.divide (env : Env K) (a b : Mat K) : Calls fun B : Ops K => divideM env B a b := by
  intro bad B C h
  unfold divideM
  split
  · exact .refl _
  · dsimp only
    split
    · exact Below.bind (.refl _) fun _ => Below.bind (.refl _) fun _ => h.mul _ _
    · exact Below.bind (h.dense _) fun _ => Below.bind (h.dense _) fun _ => .refl _

theorem Calls.trace (a : Mat K) : Calls fun B : Ops K => traceM B a :=
  fun _ _ _ h => Below.bind (h.diag a) fun _ => .refl _

end Verif
