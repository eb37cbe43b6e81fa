/-
Sampling: the result of `B.sample` is a factor of the matrix times standard noise, hence has the matrix as its covariance.
-/
import Verif.LinDer
import Verif.LinMono

set_option linter.unusedSectionVars false

namespace Verif

variable {K : Type} [Field K] [LinearOrder K]

/-! ### The specification of randomness -/

/-- `E` is an expectation over outcomes `Ω` (only linearity is used), `n` a random batch of `k × num` matrices of batch shape `bt`
whose entries have mean zero and variance one and are uncorrelated. -/
structure StdNoise {Ω : Type} (E : (Ω → K) →ₗ[K] K) (bt : Shp) (k num : ℕ) (n : Ω → Tensor K) : Prop where
  shape : ∀ ω, (n ω).sh = num :: k :: bt
  mean : ∀ β i j, InRange bt β → i < k → j < num → E (fun ω => (n ω).at' β i j) = 0
  same : ∀ β i i' j j', InRange bt β → i < k → i' < k → j < num → j' < num →
    E (fun ω => (n ω).at' β i j * (n ω).at' β i' j') = if i = i' ∧ j = j' then 1 else 0
  other : ∀ β β' i i' j j', InRange bt β → InRange bt β' → clip bt β ≠ clip bt β' → i < k → i' < k → j < num → j' < num →
    E (fun ω => (n ω).at' β i j * (n ω).at' β' i' j') = 0

/-- The entries of `n` and `n'` are uncorrelated (in each element of the common batch shape `U`). -/
def Uncorrelated {Ω : Type} (E : (Ω → K) →ₗ[K] K) (U : Shp) (k k' num : ℕ) (n n' : Ω → Tensor K) : Prop :=
  ∀ β i i' j j', InRange U β → i < k → i' < k' → j < num → j' < num → E (fun ω => (n ω).at' β i j * (n' ω).at' β i' j') = 0

/-- The random matrices `x` have mean zero, their columns are uncorrelated, and every column has covariance `a` in each batch element. -/
structure HasCov {Ω : Type} (E : (Ω → K) →ₗ[K] K) (a : Tensor K) (num : ℕ) (x : Ω → Tensor K) : Prop where
  shape : ∀ ω, (x ω).sh = num :: a.rows :: a.bt
  mean : ∀ β i j, InRange a.bt β → i < a.rows → j < num → E (fun ω => (x ω).at' β i j) = 0
  cov : ∀ β i i' j j', InRange a.bt β → i < a.rows → i' < a.rows → j < num → j' < num →
    E (fun ω => (x ω).at' β i j * (x ω).at' β i' j') = if j = j' then a.at' β i i' else 0

/-! ### Linear images of noise -/

section
variable {Ω : Type} {E : (Ω → K) →ₗ[K] K}

theorem E_sum {ι : Type} (s : Finset ι) (f : ι → Ω → K) : E (fun ω => ∑ k ∈ s, f k ω) = ∑ k ∈ s, E (f k) := by
  rw [← map_sum]
  congr 1
  funext ω
  simp

theorem E_smul (c : K) (f : Ω → K) : E (fun ω => c * f ω) = c * E f := by
  have := E.map_smul c f
  simpa [smul_eq_mul, Pi.smul_def] using this

theorem E_zero : E (fun _ => 0) = 0 := E.map_zero

theorem E_add (f g : Ω → K) : E (fun ω => f ω + g ω) = E f + E g := E.map_add f g

/-- The expectation of a product of two linear images. -/
theorem E_bilin {k k' : ℕ} (f : ℕ → K) (g : ℕ → K) (u v : ℕ → Ω → K) :
    E (fun ω => (∑ p ∈ Finset.range k, f p * u p ω) * ∑ q ∈ Finset.range k', g q * v q ω) =
      ∑ p ∈ Finset.range k, ∑ q ∈ Finset.range k', f p * g q * E (fun ω => u p ω * v q ω) := by
  have e : (fun ω => (∑ p ∈ Finset.range k, f p * u p ω) * ∑ q ∈ Finset.range k', g q * v q ω) =
      fun ω => ∑ p ∈ Finset.range k, ∑ q ∈ Finset.range k', f p * g q * (u p ω * v q ω) := by
    funext ω
    rw [Finset.sum_mul_sum]
    refine Finset.sum_congr rfl fun p _ => Finset.sum_congr rfl fun q _ => by ring
  rw [e, E_sum]
  refine Finset.sum_congr rfl fun p _ => ?_
  rw [E_sum]
  exact Finset.sum_congr rfl fun q _ => E_smul _ _

/-- The entries of a product of a fixed matrix with noise. -/
theorem noise_at {U bt : Shp} {k num : ℕ} {F n : Tensor K} (gF : Good U F) (hk : F.cols = k) (hb : Fits U bt) (hn : n.sh = num :: k :: bt) {β : Idx} {i j : ℕ}
    (hβ : InRange U β) (hi : i < F.rows) (hj : j < num) : (mm F n).at' β i j = ∑ p ∈ Finset.range k, F.at' β i p * n.at' β p j := by
  have en : n.cols = num ∧ n.rows = k ∧ n.bt = bt ∧ 2 ≤ n.rank := by
    refine ⟨?_, ?_, ?_, ?_⟩
    · simp only [Tensor.cols, hn]; rfl
    · simp only [Tensor.rows, hn]; rfl
    · simp only [Tensor.bt, hn]; rfl
    · simp [Tensor.rank, hn]
  have A : Rep U F.rows k F F.at' := Rep.self' gF.rank rfl hk gF.fits
  have N : Rep U k num n n.at' := Rep.self' en.2.2.2 en.2.1 en.1 (by rw [en.2.2.1]; exact hb)
  exact (A.mm N).at' β i j hβ hi hj

theorem E_congr {f g : Ω → K} (h : ∀ ω, f ω = g ω) : E f = E g := congrArg E (funext h)

/-- A factor times standard noise has mean zero and the right covariance. -/
theorem factor_cov {a F : Tensor K} {num : ℕ} {n : Ω → Tensor K} (rF : 2 ≤ F.rank) (h : IsFactor a F) (hn : StdNoise E a.bt F.cols num n) :
    HasCov E a num fun ω => mm F (n ω) := by
  have gF : Good a.bt F := ⟨rF, by rw [h.batch]; exact Fits.refl _⟩
  have at0 : ∀ β i j ω, InRange a.bt β → i < a.rows → j < num → (mm F (n ω)).at' β i j = ∑ p ∈ Finset.range F.cols, F.at' β i p * (n ω).at' β p j :=
    fun β i j ω hβ hi hj => noise_at gF rfl (Fits.refl _) (hn.shape ω) hβ (by rw [h.rows]; exact hi) hj
  refine ⟨fun ω => ?_, fun β i j hβ hi hj => ?_, fun β i i' j j' hβ hi hi' hj hj' => ?_⟩
  · have : (n ω).cols = num ∧ (n ω).bt = a.bt := ⟨by simp only [Tensor.cols, hn.shape]; rfl, by simp only [Tensor.bt, hn.shape]; rfl⟩
    rw [mm_sh, this.1, this.2, h.batch, h.rows, bsh_self]
  · rw [E_congr (fun ω => at0 β i j ω hβ hi hj), E_sum]
    refine Finset.sum_eq_zero fun p hp => ?_
    rw [E_smul, hn.mean β p j hβ (Finset.mem_range.1 hp) hj, mul_zero]
  · rw [E_congr (fun ω => by rw [at0 β i j ω hβ hi hj, at0 β i' j' ω hβ hi' hj']), E_bilin]
    have e : ∀ p ∈ Finset.range F.cols, ∑ q ∈ Finset.range F.cols, F.at' β i p * F.at' β i' q * E (fun ω => (n ω).at' β p j * (n ω).at' β q j') =
        if j = j' then F.at' β i p * F.at' β i' p else 0 := by
      intro p hp
      rw [Finset.mem_range] at hp
      rw [Finset.sum_eq_single p]
      · rw [hn.same β p p j j' hβ hp hp hj hj']; simp
      · intro q hq hne
        rw [hn.same β p q j j' hβ hp (Finset.mem_range.1 hq) hj hj', if_neg (fun hh => hne hh.1.symm), mul_zero]
      · intro hh; exact absurd (Finset.mem_range.2 hp) hh
    rw [Finset.sum_congr rfl e]
    split_ifs
    · exact h.prod β i i' hβ hi hi'
    · simp

/-- Different batch elements of a factor times standard noise are uncorrelated. -/
theorem factor_batches {a F : Tensor K} {num : ℕ} {n : Ω → Tensor K} (rF : 2 ≤ F.rank) (h : IsFactor a F) (hn : StdNoise E a.bt F.cols num n)
    {β β' : Idx} {i i' j j' : ℕ} (hβ : InRange a.bt β) (hβ' : InRange a.bt β') (hne : clip a.bt β ≠ clip a.bt β') (hi : i < a.rows) (hi' : i' < a.rows) (hj : j < num) (hj' : j' < num) :
    E (fun ω => (mm F (n ω)).at' β i j * (mm F (n ω)).at' β' i' j') = 0 := by
  have gF : Good a.bt F := ⟨rF, by rw [h.batch]; exact Fits.refl _⟩
  have at0 : ∀ β i j ω, InRange a.bt β → i < a.rows → j < num → (mm F (n ω)).at' β i j = ∑ p ∈ Finset.range F.cols, F.at' β i p * (n ω).at' β p j :=
    fun β i j ω hβ hi hj => noise_at gF rfl (Fits.refl _) (hn.shape ω) hβ (by rw [h.rows]; exact hi) hj
  rw [E_congr (fun ω => by rw [at0 β i j ω hβ hi hj, at0 β' i' j' ω hβ' hi' hj']), E_bilin]
  refine Finset.sum_eq_zero fun p hp => Finset.sum_eq_zero fun q hq => ?_
  rw [hn.other β β' p q j j' hβ hβ' hne (Finset.mem_range.1 hp) (Finset.mem_range.1 hq) hj hj', mul_zero]

/-- Reading mean and covariance over a larger batch shape. -/
theorem HasCov.up {U : Shp} {a : Tensor K} {num : ℕ} {x : Ω → Tensor K} (h : HasCov E a num x) (hU : Fits U a.bt) :
    (∀ β i j, InRange U β → i < a.rows → j < num → E (fun ω => (x ω).at' β i j) = 0) ∧
    ∀ β i i' j j', InRange U β → i < a.rows → i' < a.rows → j < num → j' < num →
      E (fun ω => (x ω).at' β i j * (x ω).at' β i' j') = if j = j' then a.at' β i i' else 0 := by
  have e : ∀ ω β i j, (x ω).at' (clip a.bt β) i j = (x ω).at' β i j := fun ω β i j => by
    have : (x ω).bt = a.bt := by simp only [Tensor.bt, h.shape]; rfl
    rw [← this]; exact Tensor.at'_clip (Fits.refl _) β i j
  refine ⟨fun β i j hβ hi hj => ?_, fun β i i' j j' hβ hi hi' hj hj' => ?_⟩
  · have := h.mean _ i j (inRange_clip β (hU.pos hβ.pos)) hi hj
    simpa only [e] using this
  · have := h.cov _ i i' j j' (inRange_clip β (hU.pos hβ.pos)) hi hi' hj hj'
    simp only [e] at this
    rw [this, Tensor.at'_clip (Fits.refl _)]

/-- The sum of two uncorrelated samples has the sum of the covariances. -/
theorem sum_cov {a b : Tensor K} {F G : Tensor K} {num : ℕ} {n n' : Ω → Tensor K} (ra : 2 ≤ a.rank) (rb : 2 ≤ b.rank) (rF : 2 ≤ F.rank) (rG : 2 ≤ G.rank)
    (hF : IsFactor a F) (hG : IsFactor b G) (hr : a.rows = b.rows) (hc : Compat a.bt b.bt) (hn : StdNoise E a.bt F.cols num n) (hn' : StdNoise E b.bt G.cols num n')
    (hu : Uncorrelated E (bsh a.bt b.bt) F.cols G.cols num n n') :
    HasCov E (zipB (· + ·) a b) num fun ω => zipB (· + ·) (mm F (n ω)) (mm G (n' ω)) := by
  set U := bsh a.bt b.bt with hU
  have eb : (zipB (· + ·) a b).bt = U := zipB_bt
  have er : (zipB (· + ·) a b).rows = a.rows := by rw [zipB_rows, ← hr, bd_self]
  have ec : (zipB (· + ·) a b).cols = a.rows := by rw [zipB_cols, ← hF.square, ← hG.square, ← hr, bd_self]
  have gF : Good U F := ⟨rF, by rw [hF.batch]; exact hc.fits_left⟩
  have gG : Good U G := ⟨rG, by rw [hG.batch]; exact hc.fits_right⟩
  have A : Rep U a.rows a.rows a a.at' := Rep.self' ra rfl hF.square.symm hc.fits_left
  have B : Rep U a.rows a.rows b b.at' := Rep.self' rb hr.symm (by rw [hr]; exact hG.square.symm) hc.fits_right
  have nsh : ∀ ω, (n ω).cols = num ∧ (n ω).rows = F.cols ∧ (n ω).bt = a.bt ∧ 2 ≤ (n ω).rank := fun ω => by
    have := hn.shape ω
    refine ⟨by simp only [Tensor.cols, this]; rfl, by simp only [Tensor.rows, this]; rfl, by simp only [Tensor.bt, this]; rfl, by simp [Tensor.rank, this]⟩
  have nsh' : ∀ ω, (n' ω).cols = num ∧ (n' ω).rows = G.cols ∧ (n' ω).bt = b.bt ∧ 2 ≤ (n' ω).rank := fun ω => by
    have := hn'.shape ω
    refine ⟨by simp only [Tensor.cols, this]; rfl, by simp only [Tensor.rows, this]; rfl, by simp only [Tensor.bt, this]; rfl, by simp [Tensor.rank, this]⟩
  have X : ∀ ω, Rep U a.rows num (mm F (n ω)) _ := fun ω =>
    (Rep.self' (S := U) gF.rank hF.rows rfl gF.fits).mm (Rep.self' (S := U) (nsh ω).2.2.2 (nsh ω).2.1 (nsh ω).1 (by rw [(nsh ω).2.2.1]; exact hc.fits_left))
  have Y : ∀ ω, Rep U a.rows num (mm G (n' ω)) _ := fun ω =>
    (Rep.self' (S := U) gG.rank (hG.rows.trans hr.symm) rfl gG.fits).mm (Rep.self' (S := U) (nsh' ω).2.2.2 (nsh' ω).2.1 (nsh' ω).1 (by rw [(nsh' ω).2.2.1]; exact hc.fits_right))
  have Z : ∀ ω β i j, InRange U β → i < a.rows → j < num → (zipB (· + ·) (mm F (n ω)) (mm G (n' ω))).at' β i j = (mm F (n ω)).at' β i j + (mm G (n' ω)).at' β i j :=
    fun ω β i j hβ hi hj => by rw [((X ω).zipB (· + ·) (Y ω)).at' β i j hβ hi hj, (X ω).at' β i j hβ hi hj, (Y ω).at' β i j hβ hi hj]
  have cx := factor_cov rF hF hn
  have cy := factor_cov rG hG hn'
  obtain ⟨mx, cx⟩ := cx.up hc.fits_left
  obtain ⟨my, cy⟩ := cy.up hc.fits_right
  rw [← hr] at my cy
  have cross : ∀ β i i' j j', InRange U β → i < a.rows → i' < a.rows → j < num → j' < num → E (fun ω => (mm F (n ω)).at' β i j * (mm G (n' ω)).at' β i' j') = 0 := by
    intro β i i' j j' hβ hi hi' hj hj'
    rw [E_congr (fun ω => by rw [(X ω).at' β i j hβ hi hj, (Y ω).at' β i' j' hβ hi' hj']), E_bilin]
    refine Finset.sum_eq_zero fun p hp => Finset.sum_eq_zero fun q hq => ?_
    rw [hu β p q j j' hβ (Finset.mem_range.1 hp) (Finset.mem_range.1 hq) hj hj', mul_zero]
  have cross' : ∀ β i i' j j', InRange U β → i < a.rows → i' < a.rows → j < num → j' < num → E (fun ω => (mm G (n' ω)).at' β i j * (mm F (n ω)).at' β i' j') = 0 := by
    intro β i i' j j' hβ hi hi' hj hj'
    rw [E_congr (fun ω => mul_comm _ _)]
    exact cross β i' i j' j hβ hi' hi hj' hj
  refine ⟨fun ω => ?_, fun β i j hβ hi hj => ?_, fun β i i' j j' hβ hi hi' hj hj' => ?_⟩
  · rw [zipB_sh, mm_sh, mm_sh, (nsh ω).1, (nsh ω).2.2.1, (nsh' ω).1, (nsh' ω).2.2.1, hF.batch, hG.batch, hF.rows, hG.rows, ← hr, er, eb, bsh_self, bsh_self]
    simp [hU]
  · rw [eb] at hβ; rw [er] at hi
    rw [E_congr (fun ω => Z ω β i j hβ hi hj), E_add, mx β i j hβ hi hj, my β i j hβ hi hj, add_zero]
  · rw [eb] at hβ; rw [er] at hi hi'
    have e : ∀ ω, (zipB (· + ·) (mm F (n ω)) (mm G (n' ω))).at' β i j * (zipB (· + ·) (mm F (n ω)) (mm G (n' ω))).at' β i' j' =
        ((mm F (n ω)).at' β i j * (mm F (n ω)).at' β i' j' + (mm F (n ω)).at' β i j * (mm G (n' ω)).at' β i' j') +
        ((mm G (n' ω)).at' β i j * (mm F (n ω)).at' β i' j' + (mm G (n' ω)).at' β i j * (mm G (n' ω)).at' β i' j') := fun ω => by
      rw [Z ω β i j hβ hi hj, Z ω β i' j' hβ hi' hj']; ring
    rw [E_congr e, E_add, E_add, E_add, cx β i i' j j' hβ hi hi' hj hj', cy β i i' j j' hβ hi hi' hj hj', cross β i i' j j' hβ hi hi' hj hj',
      cross' β i i' j j' hβ hi hi' hj hj', (A.zipB (· + ·) B).at' β i i' hβ hi hi']
    split_ifs <;> simp

end

section
variable {env' : Env K} {lin : LinEnv K} {B : Ops K} {L : LOps K} (hB : B.Ok) (hL : L.Ok lin) {σ : Type} (randn : σ → Shp → σ × Tensor K)

/-- The generator returns arrays of the requested shape. -/
def RandnOk (randn : σ → Shp → σ × Tensor K) : Prop := ∀ st sh, (randn st sh).2.sh = sh

include hB hL

theorem sampleOne_ok (hr : RandnOk randn) {S : Shp} {num : ℕ} {st : σ} {a : Mat K} {y : σ × Mat K} (wa : a.WF S) (hd : a.CholDom)
    (h : (do
      let ch ← L.chol a
      let bt ← shapeBatch a
      let k := dim (← shape ch) 0
      let x := randn st (num :: k :: bt)
      let s ← B.matmul false false ch (.num x.2)
      (pure (x.1, s) : E (σ × Mat K))) = .ok y) :
    ∃ F, L.chol a = .ok F ∧ CholOk S a F ∧ y.1 = (randn st (num :: (den F).cols :: (den a).bt)).1 ∧ y.2.WF S ∧
      den y.2 = mm (den F) (randn st (num :: (den F).cols :: (den a).bt)).2 ∧ 2 ≤ (den y.2).rank := by
  simp only [bind_ok_iff, pure_eq_ok] at h
  obtain ⟨F, hF, bt, hbt, sh, hsh, s, hs, rfl⟩ := h
  have o := hL.chol wa hF
  rw [wa.shapeBatch] at hbt
  rw [o.wf.shape] at hsh
  cases hbt; cases hsh
  have f := o.factor hd
  have e := hr st (num :: (den F).cols :: (den a).bt)
  have wn : (Mat.num (randn st (num :: (den F).cols :: (den a).bt)).2).WF S := by
    refine wf_num_of ⟨by simp [Tensor.rank, e], ?_⟩
    show Fits S (randn st (num :: (den F).cols :: (den a).bt)).2.bt
    simp only [Tensor.bt, e]
    exact wa.fits
  have m := hB.matmul o.wf wn o.rank (by simp [den, Tensor.rank, e]) hs
  exact ⟨F, hF, o, rfl, m.wf, m.eq, m.rank⟩

/-- `B.sample` of anything but a Woodbury matrix. -/
theorem sample_ok (hr : RandnOk randn) {S : Shp} {num : ℕ} {st : σ} {a : Mat K} {y : σ × Mat K} (wa : a.WF S) (hd : a.CholDom) (hw : a.kind ≠ some .wb)
    (h : sampleM B L randn num st a = .ok y) :
    ∃ F, L.chol a = .ok F ∧ CholOk S a F ∧ y.1 = (randn st (num :: (den F).cols :: (den a).bt)).1 ∧ y.2.WF S ∧
      den y.2 = mm (den F) (randn st (num :: (den F).cols :: (den a).bt)).2 ∧ 2 ≤ (den y.2).rank := by
  cases a <;> first | exact sampleOne_ok hB hL randn hr wa hd h | exact absurd rfl hw

/-- `B.sample` of a Woodbury matrix. -/
theorem sampleWb_ok (hr : RandnOk randn) {S : Shp} {num : ℕ} {st : σ} {d : Tensor K} {l r m : Mat K} {y : σ × Mat K} (wa : (Mat.wb d l r m).WF S) (hd : (Mat.lr l r m).CholDom)
    (h : sampleM B L randn num st (.wb d l r m) = .ok y) :
    ∃ F G st1, L.chol (.diag d) = .ok F ∧ L.chol (.lr l r m) = .ok G ∧ CholOk S (.diag d) F ∧ CholOk S (.lr l r m) G ∧
      st1 = (randn st (num :: (den F).cols :: (den (.diag d)).bt)).1 ∧
      y.1 = (randn st1 (num :: (den G).cols :: (den (.lr l r m)).bt)).1 ∧ y.2.WF S ∧
      den y.2 = zipB (· + ·) (mm (den F) (randn st (num :: (den F).cols :: (den (.diag d)).bt)).2) (mm (den G) (randn st1 (num :: (den G).cols :: (den (.lr l r m)).bt)).2) := by
  simp only [sampleM] at h
  rw [bind_ok_iff] at h
  obtain ⟨x, hx, h⟩ := h
  rw [bind_ok_iff] at h
  obtain ⟨z, hz, h⟩ := h
  simp only [bind_ok_iff, pure_eq_ok] at h
  obtain ⟨w, hw, rfl⟩ := h
  obtain ⟨F, hF, oF, e1, w1, d1, k1⟩ := sampleOne_ok hB hL randn hr (a := .diag d) wa.wbDiag trivial hx
  obtain ⟨G, hG, oG, e2, w2, d2, k2⟩ := sampleOne_ok hB hL randn hr (a := .lr l r m) wa.wbLr hd hz
  have fF := oF.factor trivial
  have fG := oG.factor hd
  have er : (den (.diag d : Mat K)).rows = (den (.lr l r m)).rows := wa.2.2.2.2.1.symm
  have s := hB.add w1 w2 (noStretch_of_eq (by rw [d1, d2, mm_rows, mm_rows, fF.rows, fG.rows, er]) (by
    rw [d1, d2, mm_cols, mm_cols]; simp only [Tensor.cols, hr _ _]; rfl)) hw
  exact ⟨F, G, x.1, hF, hG, oF, oG, e1, e2, s.wf, by rw [s.eq, d1, d2, e1]⟩

end

end Verif
