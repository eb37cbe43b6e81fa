/-
C34.  Element-wise functions: absolute value, square root, integer powers.
-/
import Verif.ExLin
import Verif.OpsNeg
import Verif.Findings
import Mathlib.Algebra.Order.AbsoluteValue.Basic
import Mathlib.Tactic.Ring

set_option linter.unusedSectionVars false

namespace Verif

variable {K : Type} [Field K] [LinearOrder K] [IsStrictOrderedRing K]

/-! ### The model -/

/-- The methods of `B.abs` (`ops/abs.py` 14-51), `B.sqrt` (`ops/sqrt.py` 14-51) and `B.power` (`ops/power.py` 14-51), which are the same up to the
function `g` of the backend that is applied to the parts.  (`B.abs`, `B.sqrt`, `B.power` of a numeric operand: `g`.) -/
def eltM (g : Tensor K → E (Tensor K)) (B : Ops K) : Mat K → E (Mat K)
  | .num t => do return .num (← g t)
  | .zero bt r c => .ok (.zero bt r c)  -- 14-16
  | .diag d => do mkDiag (← g d)  -- 29-31
  | .const t r c => do mkConst (← g t) [c, r]  -- 34-36
  | .lt t => do mkLT (← g t)  -- 39-41
  | .ut t => do mkUT (← g t)  -- 44-46
  | .kron l r => do return .kron (← eltM g B l) (← eltM g B r)  -- 49-51
  | a => do return mkDense (← g (← B.dense a))  -- 19-26

/-- `B.abs` of the backend. -/
def nAbs (t : Tensor K) : E (Tensor K) := .ok (tmap (|·|) t)
/-- `B.power(x, n)` of the backend for an integer `n`; a negative power of 0 is inf (the ghost error `nonfinite`).
Simplification: only integer exponents. -/
def nPow (n : ℤ) (t : Tensor K) : E (Tensor K) :=
  if n < 0 ∧ ∃ k < size t.sh, t.get (unlin t.sh k) = 0 then .error .nonfinite else .ok (tmap (· ^ n) t)

/-- `B.abs(a)`, `ops/abs.py`. -/
def absM (B : Ops K) (a : Mat K) : E (Mat K) := eltM nAbs B a
/-- `B.sqrt(a)`, `ops/sqrt.py`. -/
def sqrtM (lin : LinEnv K) (B : Ops K) (a : Mat K) : E (Mat K) := eltM (nSqrt lin) B a
/-- `B.power(a, n)`, `ops/power.py`. -/
def powerM (n : ℤ) (B : Ops K) (a : Mat K) : E (Mat K) := eltM (nPow n) B a

/-! ### Specification -/

/-- Every entry of `r` is related by `R` to the corresponding entry of `a`. -/
structure IsRel (R : K → K → Prop) (a r : Tensor K) : Prop where
  shape : r.sh = a.sh
  entries : ∀ i, InRange r.sh i → R (a.get i) (r.get i)

/-- No entries that are zero by the type: no Zero, Diagonal or triangular part. -/
def Mat.explicit : Mat K → Bool
  | .zero .. | .diag _ | .lt _ | .ut _ => false
  | .kron l r => l.explicit && r.explicit
  | _ => true

/-! ### Proofs -/

theorem IsRel.at {R : K → K → Prop} {a r : Tensor K} {S : Shp} (h : IsRel R a r) (h2 : 2 ≤ a.rank) {β : Idx} {i j : ℕ} (hS : Fits S a.bt) (hβ : InRange S β) (hi : i < a.rows) (hj : j < a.cols) :
    R (a.at' β i j) (r.at' β i j) := by
  have hb : r.bt = a.bt := bt_of_sh h.shape
  rw [← Tensor.at'_clip (Fits.refl a.bt) β i j, ← Tensor.at'_clip (Fits.refl r.bt) β i j, hb]
  apply h.entries
  rw [h.shape, Tensor.sh_eq h2, inRange_cons, inRange_cons]
  exact ⟨hj, hi, inRange_clip _ (hS.pos hβ.pos)⟩

theorem IsRel.of_at {R : K → K → Prop} {a r : Tensor K} (h : r.sh = a.sh) (h2 : 2 ≤ a.rank) (he : ∀ β i j, InRange a.bt β → i < a.rows → j < a.cols → R (a.at' β i j) (r.at' β i j)) :
    IsRel R a r := by
  refine ⟨h, fun i hi => ?_⟩
  rw [h, Tensor.sh_eq h2] at hi
  rw [← icons_itail i, ← icons_itail (itail i)] at hi ⊢
  rw [inRange_cons, inRange_cons] at hi
  exact he _ _ _ hi.2.2 hi.2.1 hi.1

variable {R : K → K → Prop} {g : Tensor K → E (Tensor K)}

theorem IsRel.diagC {d d' : Tensor K} (h1 : 1 ≤ d.rank) (h : IsRel R d d') (h0 : R 0 0) : IsRel R (Verif.diagC d) (Verif.diagC d') := by
  have hs : d'.cols = d.cols := by simp only [Tensor.cols, h.shape]
  have ht : d'.sh.tail = d.sh.tail := by rw [h.shape]
  refine IsRel.of_at (by simp only [diagC_sh, hs, ht]) (by simp [Tensor.rank]) fun β i j hβ hi hj => ?_
  have hb : InRange d.sh.tail β := hβ
  have hi : i < d.cols := hi
  have hj : j < d.cols := hj
  rw [at_diagC hb (Fits.refl _) hi hj, at_diagC (S := d.sh.tail) hb (by rw [ht]; exact Fits.refl _) (by rw [hs]; exact hi) (by rw [hs]; exact hj)]
  split_ifs
  · apply h.entries
    rw [h.shape]
    obtain ⟨n, s, e⟩ : ∃ n s, d.sh = n :: s := by cases e : d.sh with
      | nil => simp [Tensor.rank, e] at h1
      | cons n s => exact ⟨n, s, rfl⟩
    rw [e, inRange_cons]
    exact ⟨by simpa [Tensor.cols, e, dim] using hi, by simpa [e] using hb⟩
  · exact h0

theorem IsRel.constM {t t' : Tensor K} (h : IsRel R t t') (r c : ℕ) : IsRel R (Verif.constM t r c) (Verif.constM t' r c) := by
  refine IsRel.of_at (by simp only [constM_sh, h.shape]) (by simp [Tensor.rank]) fun β i j hβ hi hj => ?_
  have hb : InRange t.sh β := hβ
  have hi : i < r := hi
  have hj : j < c := hj
  rw [at_constM hb (Fits.refl _) hi hj, at_constM hb (by rw [h.shape]; exact Fits.refl _) hi hj]
  exact h.entries β (by rw [h.shape]; exact hb)

theorem IsRel.kronT {S : Shp} {l r l' r' : Tensor K} (gl : Good S l) (gr : Good S r) (hl : IsRel R l l') (hr : IsRel R r r') (hm : ∀ {x y x' y'}, R x y → R x' y' → R (x * x') (y * y')) :
    IsRel R (Verif.kronT l r) (Verif.kronT l' r') := by
  have c := gl.fits.compat gr.fits
  have bl := bt_of_sh hl.shape
  have br := bt_of_sh hr.shape
  have r1 := Rep.kronT (Rep.self gl.rank c.fits_left) (Rep.self gr.rank c.fits_right)
  have r2 := Rep.kronT (Rep.self' (by rw [rank_of_sh hl.shape]; exact gl.rank) (rows_of_sh hl.shape) (cols_of_sh hl.shape) (by rw [bl]; exact c.fits_left))
    (Rep.self' (t := r') (by rw [rank_of_sh hr.shape]; exact gr.rank) (rows_of_sh hr.shape) (cols_of_sh hr.shape) (by rw [br]; exact c.fits_right))
  refine IsRel.of_at (by rw [kronT_sh, kronT_sh, bl, br, rows_of_sh hl.shape, cols_of_sh hl.shape, rows_of_sh hr.shape, cols_of_sh hr.shape]) r1.rank fun β i j hβ hi hj => ?_
  rw [kronT_bt] at hβ
  have hi : i < l.rows * r.rows := hi
  have hj : j < l.cols * r.cols := hj
  rw [r1.at' β i j hβ hi hj, r2.at' β i j hβ hi hj]
  have h1 : 0 < r.rows := Nat.pos_of_ne_zero fun e => by simp [e] at hi
  have h2 : 0 < r.cols := Nat.pos_of_ne_zero fun e => by simp [e] at hj
  exact hm (hl.at gl.rank c.fits_left hβ (Nat.div_lt_of_lt_mul (by rwa [Nat.mul_comm])) (Nat.div_lt_of_lt_mul (by rwa [Nat.mul_comm])))
    (hr.at gr.rank c.fits_right hβ (Nat.mod_lt _ h1) (Nat.mod_lt _ h2))

/-- What an element-wise function returns. -/
theorem eltM_ok {B : Ops K} (hB : B.Ok) (hg : ∀ {t u}, g t = .ok u → IsRel R t u) (hm : ∀ {x y x' y'}, R x y → R x' y' → R (x * x') (y * y')) {S : Shp} {a r : Mat K}
    (hz : a.explicit = false → R 0 0 ∧ ∀ y, R 0 y → y = 0) (ha : a.WF S) (h : eltM g B a = .ok r) : r.WF S ∧ IsRel R (den a) (den r) := by
  have dense : ∀ a r, Mat.WF S a → 2 ≤ (den a).rank → (do return mkDense (← g (← B.dense a))) = Except.ok r → r.WF S ∧ IsRel R (den a) (den r) := by
    intro a r ha h2 h
    simp only [bind_ok_iff, pure_eq_ok] at h
    obtain ⟨t, ht, u, hu, rfl⟩ := h
    obtain rfl := hB.dense ha ht
    have o := hg hu
    obtain ⟨w, e⟩ := mkDense_wf (S := S) (t := u) ⟨by rw [rank_of_sh o.shape]; exact h2, by rw [bt_of_sh o.shape]; exact ha.fits⟩
    exact ⟨w, by rw [e]; exact o⟩
  induction a generalizing r with
  | num t =>
    simp only [eltM, bind_ok_iff, pure_eq_ok] at h
    obtain ⟨u, hu, rfl⟩ := h
    have o := hg hu
    exact ⟨⟨by rw [rank_of_sh o.shape]; exact ha.1, by rw [bt_of_sh o.shape]; exact ha.2⟩, o⟩
  | zero bt n m =>
    simp only [eltM, Except.ok.injEq] at h; subst h
    refine ⟨ha, rfl, fun i hi => ?_⟩
    have hi : InRange (m :: n :: bt) i := hi
    rw [den, fillT_get _ hi (Fits.refl _)]
    exact (hz rfl).1
  | diag d =>
    simp only [eltM, bind_ok_iff, mkDiag_ok] at h
    obtain ⟨u, hu, _, rfl⟩ := h
    have o := hg hu
    exact ⟨⟨by rw [rank_of_sh o.shape]; exact ha.1, by rw [o.shape]; exact ha.2⟩, o.diagC ha.1 (hz rfl).1⟩
  | const t n m =>
    simp only [eltM, bind_ok_iff, mkConst, Except.ok.injEq] at h
    obtain ⟨u, hu, rfl⟩ := h
    have o := hg hu
    have ha : Fits S t.sh := ha
    exact ⟨(by rw [o.shape]; exact ha : Fits S u.sh), o.constM n m⟩
  | lt t =>
    simp only [eltM, bind_ok_iff, mkLT_ok] at h
    obtain ⟨u, hu, _, rfl⟩ := h
    have o := hg hu
    obtain ⟨h2, hf, hs, hl⟩ := ha
    refine ⟨⟨by rw [rank_of_sh o.shape]; exact h2, by rw [bt_of_sh o.shape]; exact hf, by rw [rows_of_sh o.shape, cols_of_sh o.shape]; exact hs, ?_⟩, o⟩
    intro β i j hβ hi hj hij
    rw [bt_of_sh o.shape] at hβ; rw [rows_of_sh o.shape] at hi; rw [cols_of_sh o.shape] at hj
    apply (hz rfl).2
    rw [← hl β i j hβ hi hj hij]
    exact o.at h2 (Fits.refl _) hβ hi hj
  | ut t =>
    simp only [eltM, bind_ok_iff, mkUT_ok] at h
    obtain ⟨u, hu, _, rfl⟩ := h
    have o := hg hu
    obtain ⟨h2, hf, hs, hl⟩ := ha
    refine ⟨⟨by rw [rank_of_sh o.shape]; exact h2, by rw [bt_of_sh o.shape]; exact hf, by rw [rows_of_sh o.shape, cols_of_sh o.shape]; exact hs, ?_⟩, o⟩
    intro β i j hβ hi hj hij
    rw [bt_of_sh o.shape] at hβ; rw [rows_of_sh o.shape] at hi; rw [cols_of_sh o.shape] at hj
    apply (hz rfl).2
    rw [← hl β i j hβ hi hj hij]
    exact o.at h2 (Fits.refl _) hβ hi hj
  | kron l r' ihl ihr =>
    simp only [eltM, bind_ok_iff, pure_eq_ok] at h
    obtain ⟨l', hl', x, hx, rfl⟩ := h
    obtain ⟨⟨wl, wr⟩, kl, kr⟩ := ha
    obtain ⟨w1, o1⟩ := ihl (fun e => hz (by simp [Mat.explicit, e])) wl hl'
    obtain ⟨w2, o2⟩ := ihr (fun e => hz (by simp [Mat.explicit, e])) wr hx
    refine ⟨⟨⟨w1, w2⟩, by rw [rank_of_sh o1.shape]; exact kl, by rw [rank_of_sh o2.shape]; exact kr⟩, ?_⟩
    exact IsRel.kronT (wl.good kl) (wr.good kr) o1 o2 hm
  | dense t => exact dense _ _ ha (ha.rank rfl) h
  | lr l r' m _ _ _ => exact dense _ _ ha (ha.rank rfl) h
  | wb d l r' m _ _ _ => exact dense _ _ ha (ha.rank rfl) h
  | tiled n blk reps axis _ => exact dense _ _ ha (ha.rank rfl) h

theorem nAbs_ok {t u : Tensor K} (h : nAbs t = .ok u) : IsRel (fun x y => y = |x|) t u := by
  simp only [nAbs, Except.ok.injEq] at h; subst h
  exact ⟨rfl, fun i hi => tmap_get _ hi (Fits.refl _)⟩

theorem nPow_ok {n : ℤ} {t u : Tensor K} (h : nPow n t = .ok u) : IsRel (fun x y => y = x ^ n ∧ (n < 0 → x ≠ 0)) t u := by
  unfold nPow at h
  split_ifs at h with h0
  simp only [Except.ok.injEq] at h; subst h
  refine ⟨rfl, fun i hi => ⟨tmap_get _ hi (Fits.refl _), fun hn hx => h0 ⟨hn, lin t.sh i, lin_lt hi, ?_⟩⟩⟩
  rw [get_unlin_lin t hi]; exact hx

theorem nSqrt_rel {lin : LinEnv K} (hl : lin.Lawful) {t u : Tensor K} (h : nSqrt lin t = .ok u) : IsRel (fun x y => 0 ≤ y ∧ y * y = x) t u :=
  ⟨(nSqrt_ok hl h).1, fun i hi => (nSqrt_ok hl h).2 i (by rw [← (nSqrt_ok hl h).1]; exact hi)⟩

theorem Calls.elt (g : Tensor K → E (Tensor K)) (a : Mat K) : Calls fun B => eltM g B a := by
  intro bad B C h
  have dense : ∀ a, Below bad (do return mkDense (← g (← B.dense a))) (do return mkDense (← g (← C.dense a))) := fun a =>
    (h.dense a).bind fun _ => .refl _
  induction a with
  | kron l r ihl ihr => exact ihl.bind fun _ => ihr.bind fun _ => .refl _
  | dense t => exact dense _
  | lr l r' m _ _ _ => exact dense _
  | wb d l r' m _ _ _ => exact dense _
  | tiled n blk reps axis _ => exact dense _
  | _ => exact .refl _

/-! ### C34 -/

/-- C34.  `B.abs(a)` is the absolute value of every entry. -/
theorem C34_abs (c : Cfg K) {a r : Mat K} (ha : a.Valid) (hr : Returns c (fun B => absM B a) r) (hx : Exact c fun B => absM B a) :
    r.Valid ∧ IsMap (fun x => |x|) (den a) (den r) := by
  obtain ⟨n, h⟩ := hr.strict hx
  obtain ⟨w, o⟩ := eltM_ok (c.ok n) nAbs_ok (fun h1 h2 => by rw [h1, h2, abs_mul]) (fun _ => ⟨by simp, fun y hy => by simpa using hy⟩) ha.own h
  exact ⟨⟨_, w⟩, o.shape, o.entries⟩

/-- C34.  If `B.sqrt(a)` returns, its entries are the non-negative square roots of the entries. -/
theorem C34_sqrt (c : Cfg K) {lin : LinEnv K} (hl : lin.Lawful) {a r : Mat K} (ha : a.Valid) (hr : Returns c (fun B => sqrtM lin B a) r) (hx : Exact c fun B => sqrtM lin B a) :
    r.Valid ∧ IsRel (fun x y => 0 ≤ y ∧ y * y = x) (den a) (den r) := by
  obtain ⟨n, h⟩ := hr.strict hx
  obtain ⟨w, o⟩ := eltM_ok (c.ok n) (nSqrt_rel hl) (fun h1 h2 => ⟨mul_nonneg h1.1 h2.1, by rw [← h1.2, ← h2.2]; ring⟩)
    (fun _ => ⟨⟨le_refl _, mul_zero _⟩, fun y hy => mul_self_eq_zero.1 hy.2⟩) ha.own h
  exact ⟨⟨_, w⟩, o⟩

/-- C34.  `B.power(a, n)` raises every entry to the power `n`, for `n ≥ 1` or, for other exponents, for matrices without entries that are zero by the type. -/
theorem C34_power (c : Cfg K) {n : ℤ} {a r : Mat K} (ha : a.Valid) (hn : 1 ≤ n ∨ a.explicit = true) (hr : Returns c (fun B => powerM n B a) r) (hx : Exact c fun B => powerM n B a) :
    r.Valid ∧ IsMap (fun x => x ^ n) (den a) (den r) := by
  obtain ⟨k, h⟩ := hr.strict hx
  obtain ⟨w, o⟩ := eltM_ok (c.ok k) (nPow_ok (n := n)) (fun h1 h2 => ⟨by rw [h1.1, h2.1, mul_zpow], fun h => mul_ne_zero (h1.2 h) (h2.2 h)⟩)
    (fun e => by
      have hn : 1 ≤ n := hn.resolve_right (by simp [e])
      have h0 : n ≠ 0 := by omega
      exact ⟨⟨(zero_zpow n h0).symm, fun h => by omega⟩, fun y hy => by rw [hy.1, zero_zpow n h0]⟩) ha.own h
  exact ⟨⟨_, w⟩, o.shape, fun i hi => (o.entries i hi).1⟩

example : ∃ r, Returns Ex.cfg (fun B => absM B Ex.W) r ∧ Exact Ex.cfg fun B => absM B Ex.W := Ex.meets (Calls.elt _ _) (n := 5) (by decide +kernel)
example : ∃ r, Returns Ex.cfg (fun B => absM B Ex.Kr) r ∧ Exact Ex.cfg fun B => absM B Ex.Kr := Ex.meets (Calls.elt _ _) (n := 5) (by decide +kernel)
example : ∃ r, Returns Ex.cfg (fun B => powerM 3 B Ex.L) r ∧ Exact Ex.cfg fun B => powerM 3 B Ex.L := Ex.meets (Calls.elt _ _) (n := 5) (by decide +kernel)
example : ∃ r, Returns Ex.cfg (fun B => powerM (-2) B Ex.C) r ∧ Exact Ex.cfg fun B => powerM (-2) B Ex.C := Ex.meets (Calls.elt _ _) (n := 5) (by decide +kernel)
example : ∃ r, Returns Ex.cfg (fun B => sqrtM Ex.lin B (.kron (.diag (Ex.v [4, 9])) (.dense (Ex.m 1 2 [1, 16])))) r ∧
    Exact Ex.cfg fun B => sqrtM Ex.lin B (.kron (.diag (Ex.v [4, 9])) (.dense (Ex.m 1 2 [1, 16]))) := Ex.meets (Calls.elt _ _) (n := 5) (by decide +kernel)

/-- `B.power(a, 0)` of a Diagonal matrix has zeros off the diagonal, where the dense power has ones. -/
theorem C34_power_zero_refuted : ∃ a r : Mat ℚ, a.Valid ∧ Exact Ex.cfg (fun B => powerM 0 B a) ∧ Returns Ex.cfg (fun B => powerM 0 B a) r ∧ ¬ IsMap (fun x => x ^ (0 : ℤ)) (den a) (den r) := by
  let a : Mat ℚ := .diag (Ex.v [5, 7])
  obtain ⟨r, hr, hP⟩ := Ex.of_holds (P := fun r : Mat ℚ => decide ((den r).sh = [2, 2] ∧ (den r).get (fun k => if k = 0 then 1 else 0) = 0)) (f := fun B => powerM 0 B a) (n := 3) (by decide +kernel)
  obtain ⟨_, _, hx⟩ := Ex.meets (Calls.elt (nPow 0) a) (n := 3) (by decide +kernel)
  refine ⟨a, r, ⟨[], by decide, Fits.nil _⟩, hx, hr, fun h => ?_⟩
  simp only [decide_eq_true_eq] at hP
  have := h.entries (fun k => if k = 0 then 1 else 0) (by rw [hP.1]; intro k; rcases k with _ | _ | k <;> simp [dim])
  rw [hP.2] at this
  simp at this

end Verif
