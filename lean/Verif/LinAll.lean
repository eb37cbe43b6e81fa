/-
All functions of linear algebra together, by induction on the recursion depth.
-/
import Verif.LinDet
import Verif.LinRoot

set_option linter.unusedSectionVars false

namespace Verif

variable {K : Type} [Field K] [LinearOrder K]

/-- `B.pd_inv` of a Woodbury matrix is a Woodbury matrix. -/
def PwC (L : LOps K) : Prop := ∀ {S d l r m x}, Mat.WF S (.wb d l r m : Mat K) → L.pdInv (.wb d l r m) = .ok x → x.kind = some .wb
/-- `B.solve` does not return a Kronecker product. -/
def SkC (L : LOps K) : Prop := ∀ {S a b x}, Mat.WF S a → Mat.WF S b → 2 ≤ (den a).rank → 2 ≤ (den b).rank → L.solve a b = .ok x → x.kind ≠ some .kron

/-- The Cholesky factor is not a Zero matrix, since the matrix is not Zero, and a LowRank matrix has a plain left factor. -/
def Mat.cholNZ : Mat K → Bool
  | .zero .. => false
  | .lr l _ m => l.plain && m.cholNZ
  | _ => true

/-- The product of numeric arrays is numeric. -/
def NumMm (B : Ops K) : Prop := ∀ (s t : Tensor K) (x : Mat K), B.matmul false false (.num s) (.num t) = .ok x → x.kind ≠ some .zero

theorem ops_numMm (env : Env K) (n : ℕ) : NumMm (ops env n) := by
  intro s t x h
  cases n with
  | zero => cases h
  | succ n =>
    change stepMatmul env (ops env n) false false (.num s) (.num t) = .ok x at h
    simp only [stepMatmul, bind_ok_iff, pure_eq_ok] at h
    obtain ⟨_, _, rfl⟩ := h
    simp [Mat.kind]

def NzC (L : LOps K) : Prop := ∀ {S a x}, Mat.WF S a → a.cholNZ = true → L.chol a = .ok x → x.kind ≠ some .zero

/-- The functions of linear algebra are right. -/
structure LOps.Ok (lin : LinEnv K) (L : LOps K) : Prop where
  inv : InvC L
  solve : SolveC L
  cs : CsC L
  chol : CholC L
  pd : PdC L
  ld : LdC lin L
  root : RootC L
  dc : DcC L
  pw : PwC L
  sk : SkC L
  nz : NzC L

section
variable {env env' : Env K} {lin : LinEnv K} {B : Ops K} {L : LOps K} (hl : lin.Lawful) (hB : B.Ok) (ha : AddKinds env' B) (hm : MmKinds env' B) (hNum : NumMm B)
include hl hB ha hm

theorem stepPdInv_kind (hI : InvC L) : PwC (lstep env lin B L) := by
  intro S d l r m x wa h
  change stepPdInv env B L (.wb d l r m) = .ok x at h
  simp only [stepPdInv, pdInvWB, pdSchurM, bind_ok_iff] at h
  obtain ⟨di, hdi, dl, hdl, dr, hdr, s, _, si, hsi, lr, hlr, h⟩ := h
  obtain ⟨o1, k1⟩ := hI wa.wbDiag hdi
  obtain ⟨v, rfl⟩ := kind_diag k1
  obtain ⟨a', b', c', rfl⟩ : ∃ a b c, lr = .lr a b c := by
    have := kind_mkLR _ hlr
    cases lr <;> simp_all [Mat.kind]
  exact kind_subtract_lr ha h

theorem stepSolve_kind (hI : InvC L) : SkC (lstep env lin B L) := by
  intro S a b x wa wb ka kb h
  change stepSolve env lin B L a b = .ok x at h
  have nk : ∀ {y z : Mat K} {k : Kind}, y.kind = some k → k ≠ .kron → y.WF S → z.WF S → B.matmul false false y z = .ok x → x.kind ≠ some .kron := by
    intro y z k hk hne wy wz h
    obtain ⟨k', hk', e⟩ := hm false false y z (.inl (by cases y <;> simp_all [Mat.kind, Mat.isAM])) (triRk_of_wf wy) (triRk_of_wf wz) x h
    rw [e]
    intro e2
    cases e2
    rw [kindC_am hk] at hk'
    exact hne (mmOut_kron hk').1
  have wca := (wf_convert2 (env := env) wa ka).1
  have wcb := (wf_convert2 (env := env) wb kb).1
  unfold stepSolve at h
  split at h
  · simp only [bind_ok_iff, pure_eq_ok] at h
    obtain ⟨y, hy, rfl⟩ := h
    simp [Mat.kind]
  · split at h
    · cases h; simp [Mat.kind]
    · rename_i hh _
      rw [hh] at wca
      simp only [bind_ok_iff] at h
      obtain ⟨y, hy, h⟩ := h
      obtain ⟨o, k⟩ := hI wca hy
      exact nk (k := .diag) k (by simp) o.wf wcb h
    · simp only [solveTri, bind_ok_iff, pure_eq_ok] at h
      obtain ⟨_, _, _, _, _, _, _, _, rfl⟩ := h
      simp [mkDense, Mat.kind]
    · simp only [solveTri, bind_ok_iff, pure_eq_ok] at h
      obtain ⟨_, _, _, _, _, _, _, _, rfl⟩ := h
      simp [mkDense, Mat.kind]
    · rename_i hh _
      rw [hh] at wca
      simp only [bind_ok_iff] at h
      obtain ⟨y, hy, h⟩ := h
      obtain ⟨o, k⟩ := hI wca hy
      exact nk (k := .wb) k (by simp) o.wf wcb h
    · simp only [solveDense, bind_ok_iff, pure_eq_ok] at h
      obtain ⟨_, _, _, _, _, _, _, _, rfl⟩ := h
      simp [Mat.kind]

include hNum in
theorem stepChol_nz (hC : CholC L) (hN : NzC L) : NzC (lstep env lin B L) := by
  intro S a x wa hn h
  change stepChol lin B L a = .ok x at h
  unfold stepChol at h
  split at h
  · simp only [bind_ok_iff, pure_eq_ok] at h
    obtain ⟨_, _, rfl⟩ := h
    simp [Mat.kind]
  · simp [Mat.cholNZ] at hn
  · simp only [bind_ok_iff, mkLT_ok] at h
    obtain ⟨_, _, _, _, _, rfl⟩ := h
    simp [Mat.kind]
  · simp only [bind_ok_iff, mkDiag_ok] at h
    obtain ⟨_, _, _, _, _, rfl⟩ := h
    simp [Mat.kind]
  · simp only [bind_ok_iff] at h
    obtain ⟨_, _, _, _, _, _, _, _, h⟩ := h
    rw [kind_mkConst _ h]; simp
  · rename_i l r m
    simp only [bind_ok_iff] at h
    obtain ⟨_, _, y, hy, h⟩ := h
    simp only [Mat.cholNZ, Bool.and_eq_true] at hn
    obtain ⟨⟨wl, wr, wm⟩, ⟨kl, kr, km⟩, e1, e2⟩ := wa
    have o := hC wm hy
    have ny := hN wm hn.2 hy
    by_cases hy' : y.isAM = true
    · obtain ⟨k', hk', e⟩ := hm false false l y (.inr hy') (triRk_of_wf wl) (triRk_of_wf o.wf) x h
      rw [e]
      intro e2
      cases e2
      rw [plain_ne hn.1 wl kl env'] at hk'
      obtain ⟨k, hk⟩ : ∃ k, y.kind = some k := by cases y <;> simp_all [Mat.kind, Mat.isAM]
      rw [kindC_am hk] at hk'
      have : k ≠ .zero := by rintro rfl; exact ny hk
      revert hk' this
      cases k <;> simp [mmOut]
    · obtain ⟨t, rfl⟩ : ∃ t, y = .num t := by cases y <;> simp_all [Mat.isAM]
      have ky : kindC env' (.num t : Mat K) = .dense := kindC_num_rk (by have := o.rank; simp only [den] at this; omega)
      by_cases hl' : l.isAM = true
      · obtain ⟨k', hk', e⟩ := hm false false l (.num t) (.inl hl') (triRk_of_wf wl) (triRk_of_wf o.wf) x h
        rw [plain_ne hn.1 wl kl env', ky] at hk'
        simp [mmOut] at hk'
        rw [e, hk']; simp
      · obtain ⟨t', rfl⟩ : ∃ t, l = .num t := by cases l <;> simp_all [Mat.isAM]
        exact hNum _ _ _ h
  · simp only [bind_ok_iff, mkLT_ok] at h
    obtain ⟨_, _, _, _, _, rfl⟩ := h
    simp [Mat.kind]
  · simp only [bind_ok_iff, pure_eq_ok] at h
    obtain ⟨_, _, _, _, rfl⟩ := h
    simp [Mat.kind]
  · simp at h

include hNum in
theorem lops_ok [IsStrictOrderedRing K] (n : ℕ) : (lops env lin B n).Ok lin := by
  induction n with
  | zero =>
    refine ⟨?_, ?_, ?_, ?_, ?_, ?_, ?_, ?_, ?_, ?_, ?_⟩
    · intro S a r _ h; cases h
    · intro S a b x _ _ _ _ h; cases h
    · intro S a b x _ _ _ _ _ h; cases h
    · intro S a r _ h; cases h
    · intro S a r _ _ h; cases h
    · intro S a r _ _ h; cases h
    · intro S a r _ _ h; cases h
    · intro S a r _ _ h; cases h
    · intro S d l r m x _ h; cases h
    · intro S a b x _ _ _ _ h; cases h
    · intro S a x _ _ h; cases h
  | succ n ih =>
    have hC : CholC (lstep env lin B (lops env lin B n)) := stepChol_ok hl hB hm ih.chol
    exact ⟨stepInv_ok hl hB ha ih.inv, stepSolve_ok hl hB ih.inv, stepCholSolve_ok hl hB ih.solve ih.cs, hC,
      stepPdInv_ok hl hB ha hm ih.inv ih.pd ih.chol ih.cs, stepLogdet_ok hl hB ha hm ih.inv ih.pd ih.chol ih.ld,
      stepRoot_ok hl hB ih.dc ih.root, stepChol_dc hl hB hC, stepPdInv_kind hl hB ha hm ih.inv, stepSolve_kind hl hB ha hm ih.inv,
      stepChol_nz hl hB ha hm hNum ih.chol ih.nz⟩

end

/-- The functions of linear algebra of a configuration, with the strict tests. -/
theorem Cfg.lok [IsStrictOrderedRing K] (c : Cfg K) {lin : LinEnv K} (hl : lin.Lawful) (n m : ℕ) : (lops c.code lin (ops c.strict n) m).Ok lin :=
  lops_ok hl (c.ok n) (ops_addKinds c.strict n) (ops_mmKinds c.strict n) (ops_numMm c.strict n) m

end Verif
