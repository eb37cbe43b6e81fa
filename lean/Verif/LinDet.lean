/-
Log-determinants: correctness of one unfolding.
-/
import Verif.LinChol
import Verif.DiagPres
import Mathlib.LinearAlgebra.Matrix.SchurComplement
import Mathlib.LinearAlgebra.Matrix.Block

set_option linter.unusedSectionVars false

namespace Verif

variable {K : Type} [Field K] [LinearOrder K]

/-- `v` is the batch of logarithms of the absolute values of the determinants of `a`. -/
structure IsLogdet (lin : LinEnv K) (a v : Tensor K) : Prop where
  rank : 2 ≤ a.rank
  square : a.rows = a.cols
  shape : v.sh = a.bt
  entries : ∀ β, InRange a.bt β → (mxOf a β a.rows a.rows).det ≠ 0 ∧ v.get β = lin.log |(mxOf a β a.rows a.rows).det|

theorem IsLogdet.of_mrep {lin : LinEnv K} {n : ℕ} {a v : Tensor K} {F} (ha : MRep a.bt n n a F) (hs : v.sh = a.bt)
    (h : ∀ β, InRange a.bt β → (F β).det ≠ 0 ∧ v.get β = lin.log |(F β).det|) : IsLogdet lin a v := by
  have hn := ha.rows
  subst hn
  refine ⟨ha.rank, ha.cols.symm, hs, fun β hβ => ?_⟩
  rw [ha.mxOf hβ]
  exact h β hβ

theorem IsLogdet.at {lin : LinEnv K} {S : Shp} {a v : Tensor K} (h : IsLogdet lin a v) (ga : Good S a) {β : Idx} (hβ : InRange S β) {n : ℕ} (hn : a.rows = n) :
    (mxOf a β n n).det ≠ 0 ∧ v.get β = lin.log |(mxOf a β n n).det| := by
  subst hn
  have := h.entries _ (inRange_clip β (ga.fits.pos hβ.pos))
  rw [mxOf_clip_self] at this
  rw [← h.shape, v.get_clip] at this
  exact this

/-- Log-determinants are computed of these: not of LowRank matrices (`B.cholesky` of the non-square factor may not be triangular);
Constant and Zero matrices recurse forever. -/
def Mat.LdDom : Mat K → Prop
  | .num _ | .diag _ | .lt _ | .ut _ => True
  | .dense t => IsSymm t
  | .wb d l r m => (Mat.wb d l r m).PdDom ∧ m.LdDom
  | .kron l r => l.LdDom ∧ r.LdDom
  | _ => False

def LdC (lin : LinEnv K) (L : LOps K) : Prop := ∀ {S a v}, Mat.WF S a → a.LdDom → L.logdet a = .ok v → IsLogdet lin (den a) v

theorem nLog_ok {lin : LinEnv K} {t u : Tensor K} (h : nLog lin t = .ok u) :
    u.sh = t.sh ∧ ∀ i, InRange t.sh i → 0 < t.get i ∧ u.get i = lin.log (t.get i) := by
  unfold nLog at h
  split_ifs at h with h0
  simp only [Except.ok.injEq] at h
  subst h
  refine ⟨rfl, fun i hi => ?_⟩
  have h1 := h0 _ (lin_lt hi)
  rw [get_unlin_lin t hi] at h1
  exact ⟨h1, tmap_get _ hi (Fits.refl _)⟩

/-- The matrix determinant lemma. -/
theorem det_woodbury {n k : ℕ} (D Di : Matrix (Fin n) (Fin n) K) (L R : Matrix (Fin n) (Fin k) K) (M Mi : Matrix (Fin k) (Fin k) K)
    (hD : D * Di = 1) (hM : M * Mi = 1) :
    (D + L * M * R.transpose).det = D.det * M.det * (Mi + R.transpose * Di * L).det := by
  have h1 : D + L * M * R.transpose = D * (1 + Di * (L * M) * R.transpose) := by
    rw [Matrix.mul_add, Matrix.mul_one, ← Matrix.mul_assoc, ← Matrix.mul_assoc, hD, Matrix.one_mul]
  have h2 : (1 + R.transpose * (Di * (L * M))) = (Mi + R.transpose * Di * L) * M := by
    rw [Matrix.add_mul, mul_eq_one_comm.1 hM]; simp only [Matrix.mul_assoc]
  rw [h1, Matrix.det_mul, Matrix.det_one_add_mul_comm, h2, Matrix.det_mul]
  ring

variable [IsStrictOrderedRing K]

theorem LinEnv.Lawful.log_prod {lin : LinEnv K} (hl : lin.Lawful) {n : ℕ} (f : ℕ → K) (h : ∀ i < n, 0 < f i) :
    0 < ∏ i : Fin n, f i ∧ ∑ i ∈ Finset.range n, lin.log (f i) = lin.log (∏ i : Fin n, f i) := by
  induction n with
  | zero => simp [hl.log_one]
  | succ n ih =>
    obtain ⟨h1, h2⟩ := ih fun i hi => h i (by omega)
    rw [Fin.prod_univ_castSucc, Finset.sum_range_succ, h2]
    simp only [Fin.val_castSucc, Fin.val_last]
    exact ⟨mul_pos h1 (h n (by omega)), (hl.log h1 (h n (by omega))).symm⟩

theorem LinEnv.Lawful.log_pow {lin : LinEnv K} (hl : lin.Lawful) {x : K} (h : 0 < x) (n : ℕ) : lin.log (x ^ n) = n * lin.log x := by
  induction n with
  | zero => simp [hl.log_one]
  | succ n ih => rw [pow_succ, hl.log (pow_pos h n) h, ih]; push_cast; ring

theorem IsLogdet.kron {lin : LinEnv K} (hl : lin.Lawful) {S : Shp} {a b v w : Tensor K} (ga : Good S a) (gb : Good S b) (h1 : IsLogdet lin a v) (h2 : IsLogdet lin b w) :
    IsLogdet lin (kronT a b) (zipB (· + ·) (zipB (· * ·) (scalarT (b.rows : K)) v) (zipB (· * ·) (scalarT (a.rows : K)) w)) := by
  have c : Compat a.bt b.bt := ga.fits.compat gb.fits
  have ga' : Good (bsh a.bt b.bt) a := ⟨ga.rank, c.fits_left⟩
  have gb' : Good (bsh a.bt b.bt) b := ⟨gb.rank, c.fits_right⟩
  have A : MRep (bsh a.bt b.bt) a.rows a.rows a _ := MRep.of ga' rfl h1.square.symm
  have A' : MRep (bsh a.bt b.bt) b.rows b.rows b _ := MRep.of gb' rfl h2.square.symm
  have fv : Fits (bsh a.bt b.bt) v.sh := by rw [h1.shape]; exact c.fits_left
  have fw : Fits (bsh a.bt b.bt) w.sh := by rw [h2.shape]; exact c.fits_right
  have fv' : Fits (bsh a.bt b.bt) (zipB (· * ·) (scalarT (b.rows : K)) v).sh := by simpa using fv
  have fw' : Fits (bsh a.bt b.bt) (zipB (· * ·) (scalarT (a.rows : K)) w).sh := by simpa using fw
  refine IsLogdet.of_mrep (A.kron A') (by simp only [zipB_sh, h1.shape, h2.shape]; rfl) fun β hβ => ?_
  change InRange (bsh a.bt b.bt) β at hβ
  obtain ⟨n1, e1⟩ := h1.at ga' hβ rfl
  obtain ⟨n2, e2⟩ := h2.at gb' hβ rfl
  rw [kronMx_det]
  refine ⟨mul_ne_zero (pow_ne_zero _ n1) (pow_ne_zero _ n2), ?_⟩
  rw [zipB_get (S := bsh a.bt b.bt) _ hβ fv' fw', zipB_get (S := bsh a.bt b.bt) _ hβ (Fits.nil _) fv, zipB_get (S := bsh a.bt b.bt) _ hβ (Fits.nil _) fw, e1, e2]
  rw [abs_mul, abs_pow, abs_pow, hl.log (pow_pos (abs_pos.2 n1) _) (pow_pos (abs_pos.2 n2) _), hl.log_pow (abs_pos.2 n1), hl.log_pow (abs_pos.2 n2)]
  simp

section
variable {env env' : Env K} {lin : LinEnv K} {B : Ops K} {L : LOps K} (hl : lin.Lawful) (hB : B.Ok)
include hl hB

/-- The logarithms of the diagonal of a triangular matrix add up to its log-determinant. -/
theorem logdetTri_ok {S : Shp} {a : Mat K} {v : Tensor K} (wa : a.WF S) (k2 : 2 ≤ (den a).rank) (hd : a.DiagOk) (hs : (den a).rows = (den a).cols)
    (htri : LowerTri (den a) ∨ UpperTri (den a)) (h : logdetTri lin B a = .ok v) : IsLogdet lin (den a) v := by
  simp only [logdetTri, bind_ok_iff] at h
  obtain ⟨d, h1, u, h2, h⟩ := h
  obtain rfl := hB.diag wa k2 hd h1
  obtain ⟨hsh, hu⟩ := nLog_ok h2
  have e : v = sumAx 0 u := by
    have : axPos u.rank (-1) = .ok 0 := by
      have : u.rank = (den a).bt.length + 1 := by simp [Tensor.rank, hsh, diagE_sh]
      rw [this]; unfold axPos; simp
    simp only [nSum, this, bind_ok_iff, pure_eq_ok, Except.ok.injEq, exists_eq_left'] at h
    exact h.symm
  subst e
  have g : Good (den a).bt (den a) := ⟨k2, Fits.refl _⟩
  have hmin : min (den a).rows (den a).cols = (den a).rows := by rw [← hs]; simp
  have e1 : (sumAx 0 u).sh = (den a).bt := by rw [sumAx_sh, hsh, diagE_sh]; rfl
  refine IsLogdet.of_mrep (MRep.of g rfl hs.symm) e1 fun β hβ => ?_
  have pos : ∀ i < (den a).rows, 0 < (den a).at' β i i ∧ u.vat β i = lin.log ((den a).at' β i i) := by
    intro i hi
    have hin : InRange (diagE (den a)).sh (icons i β) := by rw [diagE_sh, inRange_cons]; exact ⟨by rw [hmin]; exact hi, hβ⟩
    have := hu _ hin
    have e := vat_diagE (t := den a) hβ (Fits.refl _) (i := i) (by rw [hmin]; exact hi)
    unfold Tensor.vat at e ⊢
    rw [e] at this
    exact this
  have hdet : (mxOf (den a) β (den a).rows (den a).rows).det = ∏ i : Fin (den a).rows, (den a).at' β i i := by
    rcases htri with ht | ht
    · rw [Matrix.det_of_isLowerTriangular]
      · rfl
      · intro i j hij
        exact ht β i j hβ i.2 (by rw [← hs]; exact j.2) (by simpa using hij)
    · rw [Matrix.det_of_isUpperTriangular]
      · rfl
      · intro i j hij
        exact ht β i j hβ i.2 (by rw [← hs]; exact j.2) (by simpa using hij)
  obtain ⟨p1, p2⟩ := hl.log_prod (n := (den a).rows) (fun i => (den a).at' β i i) fun i hi => (pos i hi).1
  rw [hdet, abs_of_pos p1, ← p2]
  refine ⟨p1.ne', ?_⟩
  unfold sumAx
  rw [ofFn_get _ (by rw [← sumAx_sh, e1]; exact hβ), hsh, diagE_sh]
  change ∑ i ∈ Finset.range (min (den a).rows (den a).cols), _ = _
  rw [hmin]
  exact Finset.sum_congr rfl fun i hi => (pos i (Finset.mem_range.1 hi)).2

theorem stepLogdet_ok (ha : AddKinds env' B) (hm : MmKinds env' B) (hI : InvC L) (hP : PdC L) (hC : CholC L) (hLd : LdC lin L) : LdC lin (lstep env lin B L) := by
  intro S a v wa hd h
  change stepLogdet lin B L a = .ok v at h
  unfold stepLogdet at h
  split at h
  · obtain ⟨h1, h2, h3, h4⟩ := hl.logdet h
    exact ⟨h1, h2, h3, h4⟩
  · exact logdetTri_ok hl hB wa (wa.rank rfl) trivial rfl (.inl (lowerTri_diagC wa.1)) h
  · exact logdetTri_ok hl hB wa (wa.rank rfl) trivial wa.2.2.1 (.inl wa.2.2.2) h
  · exact logdetTri_ok hl hB wa (wa.rank rfl) trivial wa.2.2.1 (.inr wa.2.2.2) h
  · rename_i d l r m
    simp only [pdSchurM, bind_ok_iff, nAdd_ok] at h
    obtain ⟨x, hx, y, hy, s, ⟨di, hdi, sec, hsec, mi, hmi, hs⟩, z, hz, _, ⟨_, rfl⟩, _, rfl⟩ := h
    have ho := wa.valid.own
    obtain ⟨⟨he, pl, pr, hdm⟩, hdl⟩ := hd
    obtain ⟨o1, k1⟩ := hI ho.wbDiag hdi
    obtain ⟨w, rfl⟩ := kind_diag k1
    obtain ⟨o2, ms⟩ := hP ho.wbLr.1.2.2 hdm hmi
    have hs' := schur_ok hB ho o1 o2 hsec hs
    have ss := schur_symm ho o1 o2 he ms hs'
    have ks := kind_second hm ho.wbLr.1.1 ho.wbLr.1.2.1 o1.wf ho.wbLr.2.1.1 ho.wbLr.2.1.2.1 pl pr hB hsec
    have kd := kind_add_dense ha ks hs
    have sd : s.LdDom := by
      cases s <;> simp [Mat.kind] at kd
      exact ss
    have q1 := hLd ho.wbDiag trivial hx
    have q2 := hLd ho.wbLr.1.2.2 hdl hy
    have q3 := hLd hs'.1 sd hz
    obtain ⟨⟨hd1, fd⟩, ⟨wl, wr, wm⟩, ⟨kl, kr, km⟩, ⟨e1, e2⟩, e3, e4⟩ := ho
    obtain ⟨ws, es, sr, sc⟩ := hs'
    set T := (den (.wb d l r m)).bt with hT
    have gs := ws.good q3.rank
    obtain ⟨M1, M2, HM⟩ := o2.inv.mrep' (wm.good km) rfl
    obtain ⟨D1, D2, HD⟩ := o1.inv.mrep' (S := T) (n := d.cols) ⟨by simp [den, Tensor.rank], fd⟩ rfl
    have L1 : MRep T d.cols (den m).rows (den l) _ := MRep.of (wl.good kl) e3 e1
    have R1 : MRep T d.cols (den m).rows (den r) _ := MRep.of (wr.good kr) e4 (e2.trans o2.inv.square.symm)
    have S1 := M2.add ((R1.tr.mm D2).mm L1)
    rw [← es] at S1
    have A : MRep T d.cols d.cols (den (.wb d l r m)) _ := D1.add ((L1.mm M1).mm R1.tr)
    have bd1 : (den (.diag w : Mat K)).bt = d.sh.tail := bt_of_sh o1.inv.shape
    have bm1 : (den mi).bt = (den m).bt := bt_of_sh o2.inv.shape
    have bz : z.sh = (den s).bt := q3.shape
    have bx : x.sh = d.sh.tail := q1.shape
    have by' : y.sh = (den m).bt := q2.shape
    have bs : (den s).bt = bsh (den m).bt (bsh (bsh (den r).bt d.sh.tail) (den l).bt) := by
      rw [es, zipB_bt, mm_bt, mm_bt, tr_bt, bm1, bd1]
    have fx : Fits T x.sh := by rw [bx]; exact fd
    have fy : Fits T y.sh := by rw [by']; exact (wm.good km).fits
    have fz : Fits T z.sh := by rw [bz]; exact gs.fits
    refine IsLogdet.of_mrep A ?_ fun β hβ => ?_
    · rw [zipB_sh, zipB_sh, bx, by', bz, bs]
      simp only [den, zipB_bt, diagC_bt, mm_bt, tr_bt]
      bsh_ac
    · obtain ⟨n1, f1⟩ := q1.at (S := T) ⟨by simp [den, Tensor.rank], fd⟩ hβ (n := d.cols) rfl
      obtain ⟨n2, f2⟩ := q2.at (wm.good km) hβ rfl
      obtain ⟨n3, f3⟩ := q3.at gs hβ (n := (den m).rows) sr
      rw [S1.mxOf hβ] at n3 f3
      rw [det_woodbury _ _ _ _ _ _ (HD β hβ) (HM β hβ)]
      refine ⟨mul_ne_zero (mul_ne_zero n1 n2) n3, ?_⟩
      rw [zipB_get (S := T) _ hβ (by simpa using fx.bsh fy) fz, zipB_get (S := T) _ hβ fx fy, f1, f2, f3, abs_mul, abs_mul,
        hl.log (mul_pos (abs_pos.2 n1) (abs_pos.2 n2)) (abs_pos.2 n3), hl.log (abs_pos.2 n1) (abs_pos.2 n2)]
  · rename_i l r
    obtain ⟨⟨wl, wr⟩, kl, kr⟩ := wa
    simp only [bind_ok_iff, assertSquare_ok wl, assertSquare_ok wr, exists_const, wl.shapeMatrix, wr.shapeMatrix, Except.ok.injEq, exists_eq_left', nMul_ok, nAdd_ok] at h
    obtain ⟨_, _, x, hx, _, ⟨_, rfl⟩, y, hy, _, ⟨_, rfl⟩, _, rfl⟩ := h
    exact IsLogdet.kron hl (wl.good kl) (wr.good kr) (hLd wl hd.1 hx) (hLd wr hd.2 hy)
  · rename_i n1 n2 n3 n4 n5 n6
    simp only [bind_ok_iff, nMul_ok] at h
    obtain ⟨ch, hch, x, hx, _, rfl⟩ := h
    cases a with
    | dense t =>
      have o := hC wa hch
      have of := o.factor hd
      have kc := o.kind.2.1 (.inl rfl)
      have q := hLd o.wf (by cases ch <;> simp_all [Mat.kind, Mat.LdDom]) hx
      have gt : Good (t.bt) t := ⟨wa.1, Fits.refl _⟩
      obtain ⟨A, C, H⟩ := of.mrep (S := t.bt) gt o.rank
      have ec : (den ch).cols = t.rows := by rw [← q.square]; exact of.rows
      change MRep t.bt t.rows (den ch).cols (den ch) _ at C
      have fx : Fits t.bt x.sh := by rw [q.shape]; exact C.bt
      refine IsLogdet.of_mrep A (by rw [zipB_sh, q.shape]; simpa using of.batch) fun β hβ => ?_
      obtain ⟨n1, f1⟩ := q.at C.good hβ (n := t.rows) of.rows
      have hh := H β hβ
      rw [ec] at hh
      change mxOf (den ch) β t.rows t.rows * (mxOf (den ch) β t.rows t.rows).transpose = mxOf t β t.rows t.rows at hh
      show (mxOf t β t.rows t.rows).det ≠ 0 ∧ _ = lin.log |(mxOf t β t.rows t.rows).det|
      rw [← hh, Matrix.det_mul, Matrix.det_transpose]
      refine ⟨mul_ne_zero n1 n1, ?_⟩
      rw [zipB_get (S := t.bt) _ hβ (Fits.nil _) fx, f1, abs_mul, hl.log (abs_pos.2 n1) (abs_pos.2 n1)]
      simp; ring
    | num t => exact (n1 _ rfl).elim
    | diag t => exact (n2 _ rfl).elim
    | lt t => exact (n3 _ rfl).elim
    | ut t => exact (n4 _ rfl).elim
    | wb d l r m => exact (n5 _ _ _ _ rfl).elim
    | kron l r => exact (n6 _ _ rfl).elim
    | _ => exact hd.elim

end

end Verif
