/-
C60, continued: programs that solve regular systems, and observations, do not depend on the representation either.
-/
import Verif.Prog4

set_option linter.unusedSectionVars false

namespace Verif

variable {K : Type} [Field K] [LinearOrder K] [IsStrictOrderedRing K]

/-! ### Solutions of regular systems -/

/-- Every matrix of the batch is regular. -/
def Regular (a : Tensor K) : Prop := ∀ β, InRange a.bt β → (mxOf a β a.rows a.rows).det ≠ 0

/-- A regular system has one solution. -/
theorem IsSolution.unique {a b s t : Tensor K} (hr : Regular a) (hs : IsSolution a b s) (ht : IsSolution a b t) : s = t := by
  have e := hs.shape.trans ht.shape.symm
  refine LExpr.eq_of_entries (by simp [Tensor.rank, hs.shape]) e fun β i j hβ hi hj => ?_
  rw [hs.bt] at hβ
  rw [hs.rows] at hi
  rw [hs.cols] at hj
  have hd : (mxOf a β a.rows a.rows).det ≠ 0 := by
    have := hr _ (inRange_clip β (hs.batch.fits_left.pos hβ.pos))
    rwa [mxOf_clip_self] at this
  have mul {x : Tensor K} (h : IsSolution a b x) : mxOf a β a.rows a.rows * mxOf x β a.rows b.cols = mxOf b β a.rows b.cols := by
    ext i j
    have := h.entries β i j hβ i.2 j.2
    rw [Finset.sum_range] at this
    rw [Matrix.mul_apply]
    exact this
  have hu := Matrix.nonsing_inv_mul _ (isUnit_iff_ne_zero.2 hd)
  have := congrArg (fun M => (mxOf a β a.rows a.rows)⁻¹ * M) ((mul hs).trans (mul ht).symm)
  simp only [← Matrix.mul_assoc, hu, Matrix.one_mul] at this
  exact congrFun (congrFun this ⟨i, hi⟩) ⟨j, hj⟩

/-- The solution of a regular system with a zero right-hand side of full batch shape is that right-hand side. -/
theorem IsSolution.eq_zero {a b s : Tensor K} (hr : Regular a) (hb : bsh a.bt b.bt = b.bt) (hs : IsSolution a b s) (h0 : LExpr.AllZero b) (h2 : 2 ≤ b.rank) : s = b := by
  refine hs.unique hr ⟨hs.square, hs.inner, hs.batch, ?_, fun β i j hβ hi hj => ?_⟩
  · rw [hb, hs.inner]; exact Tensor.sh_eq h2
  · have hz : ∀ k, k < a.rows → b.at' β k j = 0 := fun k hk => h0 _ (by
      rw [Tensor.sh_eq h2]
      rw [hb] at hβ
      exact inRange_cons.2 ⟨hj, inRange_cons.2 ⟨by rw [← hs.inner]; exact hk, hβ⟩⟩)
    rw [hz i hi]
    exact Finset.sum_eq_zero fun k hk => by rw [hz k (Finset.mem_range.1 hk), mul_zero]

namespace Call

/-- The specification determines the result of the call on these arrays: linear systems are regular and their right-hand sides have the batch dimensions of the matrices
(a zero right-hand side is returned as it is); Cholesky factors and roots are excluded. -/
def DeterminedAt : Call K (Tensor K) → Prop
  | .solve a b | .triSolve _ a b => Regular a ∧ bsh a.bt b.bt = b.bt ∧ 2 ≤ b.rank
  | .cholSolve a _ => ∀ p, IsMatProd a (Verif.tr a) p → Regular p
  | .chol _ | .root _ => False
  | _ => True

theorem spec_unique' {k : Call K (Tensor K)} {s t : Tensor K} (hk : k.DeterminedAt) (hs : k.Spec s) (ht : k.Spec t) : s = t := by
  have sol {a b : Tensor K} (h : Regular a ∧ bsh a.bt b.bt = b.bt ∧ 2 ≤ b.rank) (hs : IsSolution a b s ∨ LExpr.AllZero b ∧ s = b) (ht : IsSolution a b t ∨ LExpr.AllZero b ∧ t = b) : s = t := by
    rcases hs with hs | ⟨z, rfl⟩ <;> rcases ht with ht | ⟨z', rfl⟩
    · exact hs.unique h.1 ht
    · exact hs.eq_zero h.1 h.2.1 z' h.2.2
    · exact (ht.eq_zero h.1 h.2.1 z h.2.2).symm
    · rfl
  cases k with
  | solve a b => exact sol hk hs ht
  | triSolve lower a b => exact sol hk hs ht
  | cholSolve a b =>
    obtain ⟨p, h1, h2⟩ := hs
    obtain ⟨p', h1', h2'⟩ := ht
    obtain rfl := h1.unique h1'
    exact h2.unique (hk p h1) h2'
  | chol a => exact hk.elim
  | root a => exact hk.elim
  | _ => exact spec_unique (by trivial) hs ht

end Call

/-- Every call of the program on dense arrays determines its result. -/
def DeterminedOn : List (Tensor K) → List (Call K ℕ) → Prop
  | _, [] => True
  | st, k :: ks => (k.map (readVar (scalarT 0) st)).DeterminedAt ∧ ∀ t, (k.map (readVar (scalarT 0) st)).Spec t → DeterminedOn (st ++ [t]) ks

theorem DHist.unique' {st s t : List (Tensor K)} {ks : List (Call K ℕ)} (hk : DeterminedOn st ks) (hs : DHist st ks s) (ht : DHist st ks t) : s = t := by
  induction hs with
  | nil st => cases ht; rfl
  | step hv h _ ih =>
    cases ht with
    | step hv' h' ht =>
      obtain rfl := Call.spec_unique' hk.1 h h'
      exact ih (hk.2 _ h) ht

/-- C60.  Representation does not matter to programs that solve regular systems: two histories of the same calls that start with values representing the same arrays end with values
representing the same arrays. -/
theorem C60_representation_solve (c c' : Cfg K) {lin lin' : LinEnv K} (hl : lin.Lawful) (hl' : lin'.Lawful) {st st' fin fin' : List (Mat K)} {ks : List (Call K ℕ)}
    (hk : DeterminedOn (st.map den) ks) (hv : ∀ a ∈ st, a.Valid) (hv' : ∀ a ∈ st', a.Valid) (he : st.map den = st'.map den) (h : Hist c lin st ks fin) (h' : Hist c' lin' st' ks fin') :
    fin.map den = fin'.map den := by
  have d := (C60_refines c hl hv h).2
  have d' := (C60_refines c' hl' hv' h').2
  rw [← he] at d'
  exact d.unique' hk d'

/-! ### Observations -/

theorem IsDiagonalOf.unique {a s t : Tensor K} (h : IsDiagonalOf a s) (h' : IsDiagonalOf a t) : s = t := by
  refine Tensor.ext_inRange (h.shape.trans h'.shape.symm) fun i hi => ?_
  rw [h.shape] at hi
  obtain ⟨h1, h2⟩ := inRange_cons'.1 hi
  have x := h.entries _ _ h2 h1
  have y := h'.entries _ _ h2 h1
  simp only [Tensor.vat, icons_itail] at x y
  rw [x, y]

theorem IsReshape.unique {sh : Shp} {a s t : Tensor K} (h : IsReshape sh a s) (h' : IsReshape sh a t) : s = t := by
  refine Tensor.ext_inRange (h.shape.trans h'.shape.symm) fun i hi => ?_
  rw [h.shape] at hi
  have hn : lin sh i < Verif.size a.sh := by rw [← h.size]; exact lin_lt hi
  have hj := inRange_unlin hn
  have e : rowMajor sh i = rowMajor a.sh (unlin a.sh (lin sh i)) := by rw [rowMajor_eq, rowMajor_eq, lin_unlin hn]
  rw [h.entries i _ hi hj e, h'.entries i _ hi hj e]

theorem IsSumAxis.unique {k : ℕ} {a s t : Tensor K} (h : IsSumAxis k a s) (h' : IsSumAxis k a t) : s = t :=
  Tensor.ext_inRange (h.shape.trans h'.shape.symm) fun i hi => by
    rw [h.entries i hi, h'.entries i (by rw [h'.shape, ← h.shape]; exact hi)]

theorem IsSumAll.unique {a s t : Tensor K} (h : IsSumAll a s) (h' : IsSumAll a t) : s = t :=
  Tensor.ext_inRange (h.shape.trans h'.shape.symm) fun i hi => by
    rw [h.shape] at hi
    have : i = fun _ => 0 := by funext k; have := hi k; simp only [dim, List.getD_nil] at this; omega
    rw [this, h.entry, h'.entry]

/-- The specification of an observation determines what is observed (log-determinants with the same logarithm). -/
theorem Obs.spec_unique {lin lin' : LinEnv K} (hl : lin.log = lin'.log) {o : Obs (Tensor K)} {s t : Tensor K} (hs : o.Spec lin s) (ht : o.Spec lin' t) : s = t := by
  cases o with
  | dense a => exact hs.trans ht.symm
  | diag a => exact IsDiagonalOf.unique hs ht
  | trace a =>
    have hs : IsTrace a s := hs
    have ht : IsTrace a t := ht
    exact Tensor.ext_inRange (hs.shape.trans ht.shape.symm) fun i hi => by rw [hs.shape] at hi; rw [hs.entries i hi, ht.entries i hi]
  | sumAll a => exact IsSumAll.unique hs ht
  | sumAxis a x =>
    obtain ⟨k, h1, h2⟩ := hs
    obtain ⟨k', h1', h2'⟩ := ht
    obtain rfl : k = k' := by unfold AxisAt at h1 h1'; omega
    exact h2.unique h2'
  | meanAll a =>
    obtain ⟨u, h1, h2⟩ := hs
    obtain ⟨u', h1', h2'⟩ := ht
    obtain rfl := h1.unique h1'
    exact (IsMap.eq h2).trans (IsMap.eq h2').symm
  | meanAxis a x =>
    obtain ⟨k, u, h0, h1, h2⟩ := hs
    obtain ⟨k', u', h0', h1', h2'⟩ := ht
    obtain rfl : k = k' := by unfold AxisAt at h0 h0'; omega
    obtain rfl := h1.unique h1'
    exact (IsMap.eq h2).trans (IsMap.eq h2').symm
  | logdet a =>
    have hs : IsLogdet lin a s := hs
    have ht : IsLogdet lin' a t := ht
    exact Tensor.ext_inRange (hs.shape.trans ht.shape.symm) fun i hi => by rw [hs.shape] at hi; rw [(hs.entries i hi).2, (ht.entries i hi).2, hl]
  | ratio a b =>
    obtain ⟨bi, h1, h2⟩ := hs
    obtain ⟨bi', h1', h2'⟩ := ht
    obtain rfl := h1.unique h1'
    exact Tensor.ext_inRange (h2.shape.trans h2'.shape.symm) fun i hi => by rw [h2.shape] at hi; rw [h2.entries i hi, h2'.entries i hi]
  | matmulDiag ta tb a b =>
    obtain ⟨p, h1, h2⟩ := hs
    obtain ⟨p', h1', h2'⟩ := ht
    obtain rfl := h1.unique h1'
    exact h2.unique h2'
  | iqfDiag same a b c =>
    obtain ⟨ai, p, q, h1, h2, h3, h4⟩ := hs
    obtain ⟨ai', p', q', h1', h2', h3', h4'⟩ := ht
    obtain rfl := h1.unique h1'
    obtain rfl := h2.unique h2'
    obtain rfl := h3.unique h3'
    exact h4.unique h4'
  | reshape sh a => exact IsReshape.unique hs ht

/-- C60.  What is observed at the end of a program does not depend on how the initial values are represented. -/
theorem C60_observe_representation (c c' : Cfg K) {lin lin' : LinEnv K} (hl : lin.Lawful) (hl' : lin'.Lawful) (hlog : lin.log = lin'.log) {st st' fin fin' : List (Mat K)}
    {ks : List (Call K ℕ)} {o : Obs ℕ} {r r' : Mat K} (hk : DeterminedOn (st.map den) ks) (hv : ∀ a ∈ st, a.Valid) (hv' : ∀ a ∈ st', a.Valid) (he : st.map den = st'.map den)
    (h : Hist c lin st ks fin) (h' : Hist c' lin' st' ks fin') (ho : ∀ i ∈ o.args, i < fin.length) (ho' : ∀ i ∈ o.args, i < fin'.length)
    (hd : (o.map (readVar (.num (scalarT 0)) fin)).Dom) (hd' : (o.map (readVar (.num (scalarT 0)) fin')).Dom)
    (hr : LReturns c lin (fun B L => (o.map (readVar (.num (scalarT 0)) fin)).run c.code B L) r)
    (hx : LExact c lin fun B L => (o.map (readVar (.num (scalarT 0)) fin)).run c.code B L)
    (hr' : LReturns c' lin' (fun B L => (o.map (readVar (.num (scalarT 0)) fin')).run c'.code B L) r')
    (hx' : LExact c' lin' fun B L => (o.map (readVar (.num (scalarT 0)) fin')).run c'.code B L) : den r = den r' := by
  obtain ⟨ds, d, s⟩ := C60_observe c hl hv h ho hd hr hx
  obtain ⟨ds', d', s'⟩ := C60_observe c' hl' hv' h' ho' hd' hr' hx'
  rw [← he] at d'
  obtain rfl := d.unique' hk d'
  exact Obs.spec_unique hlog s s'

/-! ### An example: a Woodbury matrix and its dense form; `x = solve(W, D); y = x + D` -/

namespace Ex

/-- The dense form of `W`. -/
def Wd : Mat ℚ := .dense (den W)

def prog5 : List (Call ℚ ℕ) := [.solve 0 1, .add 2 1]

def x5 : Mat ℚ := call (.solve W D)
def y5 : Mat ℚ := call (.add x5 D)
def x5d : Mat ℚ := call (.solve Wd D)
def y5d : Mat ℚ := call (.add x5d D)

theorem Wd_valid : Wd.Valid := ⟨[], by decide +kernel, Fits.nil _⟩

theorem W_regular : Regular (den W) := by
  intro β h
  have : β = fun _ => 0 := by
    funext k
    have h := h k
    rw [show (den W).bt = [] by decide +kernel] at h
    simp only [dim, List.getD_nil] at h
    omega
  subst this
  decide +kernel

theorem prog5_determined : DeterminedOn ([W, D].map den) prog5 := by
  refine ⟨⟨W_regular, ?_, ?_⟩, fun t _ => ⟨trivial, fun _ _ => trivial⟩⟩
  · show bsh (den W).bt (den D).bt = (den D).bt
    decide +kernel
  · show 2 ≤ (den D).rank
    decide +kernel

theorem prog5_hist : Hist cfg lin [W, D] prog5 [W, D, x5, y5] := by
  have m2 := call_meets (k := .solve W D) (by decide +kernel)
  have m3 := call_meets (k := .add x5 D) (by decide +kernel)
  have b2 : (den x5).sh = [2, 2] := by decide +kernel
  refine .step 4 (by decide) ?_ m2.1 m2.2 (.step 4 (by decide) ?_ m3.1 m3.2 (.nil _))
  · exact ⟨Compat.refl _, by decide +kernel, by decide +kernel⟩
  · exact ⟨by show Compat (den x5).bt (den D).bt; rw [show (den x5).bt = [] by rw [Tensor.bt, b2]; rfl]; exact Compat.refl _, noStretch_of_eq (by decide +kernel) (by decide +kernel)⟩

theorem prog5_hist_dense : Hist cfg lin [Wd, D] prog5 [Wd, D, x5d, y5d] := by
  have m2 := call_meets (k := .solve Wd D) (by decide +kernel)
  have m3 := call_meets (k := .add x5d D) (by decide +kernel)
  have b2 : (den x5d).sh = [2, 2] := by decide +kernel
  refine .step 4 (by decide) ?_ m2.1 m2.2 (.step 4 (by decide) ?_ m3.1 m3.2 (.nil _))
  · exact ⟨Compat.refl _, by decide +kernel, by decide +kernel⟩
  · exact ⟨by show Compat (den x5d).bt (den D).bt; rw [show (den x5d).bt = [] by rw [Tensor.bt, b2]; rfl]; exact Compat.refl _, noStretch_of_eq (by decide +kernel) (by decide +kernel)⟩

end Ex

/-- The hypotheses are met: a program that solves with a Woodbury matrix and with its dense form. -/
example : [Ex.W, Ex.D, Ex.x5, Ex.y5].map den = [Ex.Wd, Ex.D, Ex.x5d, Ex.y5d].map den := by
  refine C60_representation_solve (st' := [Ex.Wd, Ex.D]) Ex.cfg Ex.cfg Ex.lin_lawful Ex.lin_lawful Ex.prog5_determined Ex.prog_valid ?_ rfl Ex.prog5_hist Ex.prog5_hist_dense
  intro a h
  simp only [List.mem_cons, List.not_mem_nil, or_false] at h
  rcases h with rfl | rfl
  exacts [Ex.Wd_valid, ⟨[], Ex.D_wf _⟩]

end Verif
