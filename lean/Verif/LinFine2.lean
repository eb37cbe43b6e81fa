/-
Success of linear algebra (C50), part 3: Cholesky factors, solving, positive-definite inverses, log-determinants, roots.
-/
import Verif.LinPd

set_option linter.unusedSectionVars false

namespace Verif

variable {K : Type} [Field K] [LinearOrder K] [IsStrictOrderedRing K]

/-! ### Specification: on which operands -/

/-- Positive-definite matrices: numeric, Dense and Diagonal; Woodbury with equal plain factors and positive-definite diagonal and middle factor; Kronecker products of these. -/
def Mat.PosDom : Mat K → Prop
  | .num t => IsPosDef t
  | .dense t => IsPosDef t
  | .diag d => IsPosDef (diagC d)
  | .wb d l r m => IsPosDef (diagC d) ∧ den l = den r ∧ l.plain = true ∧ r.plain = true ∧ m.PosDom
  | .kron l r => l.PosDom ∧ r.PosDom
  | _ => False

/-- All entries are nonnegative. -/
def Tensor.Nonneg (t : Tensor K) : Prop := ∀ i, InRange t.sh i → 0 ≤ t.get i

/-- Matrices with a Cholesky factor: positive-definite numeric, Dense and Woodbury matrices; square Zero matrices; nonnegative Diagonal matrices; square Constant matrices with a
nonnegative value; LowRank matrices with equal factors around such a matrix; Kronecker products of these. -/
def Mat.CholFine : Mat K → Prop
  | .num t => IsPosDef t
  | .dense t => IsPosDef t
  | .zero _ r c => r = c
  | .diag d => d.Nonneg
  | .const t r c => r = c ∧ 0 < c ∧ t.Nonneg
  | .lr l r m => den l = den r ∧ m.CholFine
  | .wb d l r m => IsPosDef (den (.wb d l r m))
  | .kron l r => l.CholFine ∧ r.CholFine
  | _ => False

/-- Matrices `B.solve` solves with: `B.inv` inverts a Woodbury matrix, all others are invertible. -/
def Mat.SolveFine : Mat K → Prop
  | .wb d l r m => (Mat.wb d l r m).InvDom
  | a => (den a).Invertible

/-- The solution is the product with the inverse, which `B.matmul` computes for a Kronecker product only if nothing is empty: leave this case out. -/
def NoKronRhs (a b : Mat K) : Prop := a.kind = some .diag ∨ a.kind = some .wb → b.isKron = false

/-- What `B.cholesky_solve` solves with. -/
def CsFine : Mat K → Mat K → Prop
  | .num s, .num t => LowerTri s ∧ s.Invertible ∧ s.rows = t.rows
  | .kron l r, .kron l' r' => CsFine l l' ∧ CsFine r r'
  | .diag d, b => (diagC d).Invertible ∧ d.cols = (den b).rows ∧ b.kind ≠ some .zero ∧ b.isKron = false
  | .lt t, b => t.Invertible ∧ t.rows = (den b).rows ∧ b.kind ≠ some .zero
  | .ut t, b => t.Invertible ∧ t.rows = (den b).rows ∧ b.kind ≠ some .zero
  | _, _ => False

/-! ### Contracts -/

def CholCalm (S : Shp) (L : LOps K) : Prop := ∀ {a}, Mat.WF S a → a.fit true → a.CholFine → Calm (L.chol a)
def CholFit (L : LOps K) : Prop := ∀ {S κ a}, Mat.WF S a → a.fit κ → Post (Mat.fit κ) (L.chol a)
def SolveCalm (S : Shp) (L : LOps K) : Prop := ∀ {a b}, Mat.WF S a → Mat.WF S b → a.fit true → b.fit true → 2 ≤ (den a).rank → 2 ≤ (den b).rank →
  (den a).rows = (den b).rows → a.SolveFine → NoKronRhs a b → Calm (L.solve a b)
def SolveFit (L : LOps K) : Prop := ∀ {S a b}, Mat.WF S a → 2 ≤ (den a).rank → a.fit true → b.fit true → Post (Mat.fit false) (L.solve a b)
def CsCalm (S : Shp) (L : LOps K) : Prop := ∀ {a b}, Mat.WF S a → Mat.WF S b → a.fit true → b.fit true → 2 ≤ (den a).rank → 2 ≤ (den b).rank → CsFine a b → Calm (L.cholSolve a b)
def PdCalm (S : Shp) (L : LOps K) : Prop := ∀ {a}, Mat.WF S a → a.fit true → a.PosDom → Calm (L.pdInv a)
def CsFit (L : LOps K) : Prop := ∀ {S κ a b}, Mat.WF S a → 2 ≤ (den a).rank → a.fit true → b.fit κ → Post (Mat.fit κ) (L.cholSolve a b)
def PdFit (S : Shp) (L : LOps K) : Prop := ∀ {κ a}, Mat.WF S a → a.fit κ → a.PosDom → Post (Mat.fit κ) (L.pdInv a)

/-! ### Primitives -/

theorem Tensor.Invertible.bbT {S : Shp} (h0 : 0 ∉ S) {a : Tensor K} (g : Good S a) (h : a.Invertible) : (bbT S a).Invertible := by
  have A : MRep S a.rows a.rows a _ := MRep.of g rfl h.square.symm
  have A' := MRep.bcast (Fits.refl S) A g.fits
  have e : bcast (a.rows :: a.rows :: S) a = Verif.bbT S a := by unfold Verif.bbT; rw [← h.square]
  rw [e] at A'
  exact (invertible_iff h0 A').2 ((invertible_iff h0 A).1 h)

theorem Tensor.Invertible.tr {a : Tensor K} (h0 : 0 ∉ a.bt) (h : a.Invertible) : (tr a).Invertible := by
  have g : Good a.bt a := ⟨h.rank, Fits.refl _⟩
  have A : MRep a.bt a.rows a.rows a _ := MRep.of g rfl h.square.symm
  refine (invertible_iff h0 A.tr).2 fun β hβ => ?_
  obtain ⟨R, hR⟩ := (invertible_iff h0 A).1 h β hβ
  refine ⟨R.transpose, ?_⟩
  rw [← Matrix.transpose_mul, mul_eq_one_comm.1 hR, Matrix.transpose_one]

theorem assertSquare_calm {S : Shp} {a : Mat K} (h : a.WF S) (k : 2 ≤ (den a).rank) (e : (den a).rows = (den a).cols) : Calm (assertSquare a) :=
  Calm.of ((assertSquare_ok h (u := ())).2 ⟨k, e⟩)

theorem nSqrt_calm {lin : LinEnv K} (hc : lin.Complete) {t : Tensor K} (h : t.Nonneg) : Calm (nSqrt lin t) := by
  unfold nSqrt
  rw [if_pos]
  · exact Calm.ok
  · intro n hn
    obtain ⟨y, hy⟩ := hc.sqrt (h _ (inRange_unlin hn))
    rw [hy]; rfl

theorem Mat.CholFine.dom {a : Mat K} (h : a.CholFine) : a.CholDom := by
  induction a with
  | num t => exact IsPosDef.symm h
  | dense t => exact IsPosDef.symm h
  | lr l r m _ _ ih => exact ⟨h.1, ih h.2⟩
  | wb d l r m => exact IsPosDef.symm h
  | kron l r i j => exact ⟨i h.1, j h.2⟩
  | _ => trivial

section
variable {S : Shp} {env env' : Env K} {lin : LinEnv K} {B : Ops K} {L : LOps K}

theorem stepChol_fit (hK : B.Keeps) (hf : CholFit L) : CholFit (lstep env lin B L) := by
  intro S κ a wa fa x h
  change stepChol lin B L a = .ok x at h
  unfold stepChol at h
  split at h
  · simp only [bind_ok_iff, pure_eq_ok] at h
    obtain ⟨_, _, rfl⟩ := h
    trivial
  · simp only [bind_ok_iff, pure_eq_ok] at h
    obtain ⟨_, _, rfl⟩ := h
    trivial
  · simp only [bind_ok_iff, mkLT_ok] at h
    obtain ⟨_, _, _, _, _, rfl⟩ := h
    trivial
  · simp only [bind_ok_iff, mkDiag_ok] at h
    obtain ⟨_, _, _, _, _, rfl⟩ := h
    trivial
  · simp only [bind_ok_iff] at h
    obtain ⟨_, _, _, _, _, _, _, _, h⟩ := h
    exact fitp_mkConst _ _ _ _ h
  · simp only [bind_ok_iff] at h
    obtain ⟨_, _, y, hy, h⟩ := h
    exact (hK.matmul fa.1 (hf wa.1.2.2 fa.2.2 y hy) x h).of
  · simp only [bind_ok_iff, mkLT_ok] at h
    obtain ⟨_, _, _, _, _, rfl⟩ := h
    trivial
  · simp only [bind_ok_iff, pure_eq_ok] at h
    obtain ⟨y, hy, z, hz, rfl⟩ := h
    exact ⟨fa.1, hf wa.1.1 fa.2.1 y hy, hf wa.1.2 fa.2.2 z hz⟩
  · cases h

theorem stepChol_calm (hl : lin.Lawful) (hc : lin.Complete) (hB : B.Ok) (hF : B.Fine S) (hC : CholC L) (hf : CholFit L) (hcalm : CholCalm S L) :
    CholCalm S (lstep env lin B L) := by
  intro a wa fa da
  show Calm (stepChol lin B L a)
  unfold stepChol
  split
  · exact Calm.bind (Calm.ex (hc.chol da)) fun _ _ => Calm.pure
  · exact Calm.bind (assertSquare_calm wa (wa.rank rfl) da) fun _ _ => Calm.pure
  · have da : IsPosDef _ := da
    refine Calm.bind (assertSquare_calm wa da.rank da.square) fun _ _ => Calm.bind (Calm.ex (hc.chol da)) fun u hu => ?_
    exact Calm.of (mkLT_of (by rw [rank_of_sh (hl.chol hu).2.2.1]; exact da.rank))
  · refine Calm.bind (assertSquare_calm wa (wa.rank rfl) rfl) fun _ _ => Calm.bind (nSqrt_calm hc da) fun u hu => ?_
    exact Calm.of (mkDiag_of (by simp only [Tensor.rank, (nSqrt_ok hl hu).1]; exact wa.1))
  · rename_i t r c
    obtain ⟨e, h0, hn⟩ := da
    refine Calm.bind (assertSquare_calm wa (wa.rank rfl) e) fun _ _ => Calm.bind (nSqrt_calm hc hn) fun u hu => ?_
    refine Calm.bind (nSqrt_calm hc fun i _ => ?_) fun v hv => ?_
    · show (0 : K) ≤ (scalarT (c : K)).get i
      simp
    · obtain ⟨e1, _⟩ := nSqrt_ok hl hu
      obtain ⟨e2, q⟩ := nSqrt_ok hl hv
      have e2' : v.sh = [] := e2
      refine Calm.bind (nDiv_calm (by rw [e2']; exact Compat.nil_right _) fun i hi => ?_) fun w hw => ?_
      · intro hz
        rw [e2] at hi
        have := (q i hi).2
        rw [hz, mul_zero] at this
        have h1 : (scalarT (c : K)).get i = (c : K) := by simp
        rw [h1] at this
        exact absurd (Nat.cast_eq_zero.1 this.symm) h0.ne'
      · exact mkConst_of (Compat.nil_right _)
  · rename_i l r m
    obtain ⟨e, dm⟩ := da
    have k := wa.rank rfl
    obtain ⟨⟨wl, wr, wm⟩, ⟨kl, kr, km⟩, e1, e2⟩ := wa
    obtain ⟨fl, fr, fm⟩ := fa
    refine Calm.bind (assertSquare_calm (S := S) ⟨⟨wl, wr, wm⟩, ⟨kl, kr, km⟩, e1, e2⟩ k ?_) fun _ _ => Calm.bind (hcalm wm fm.up dm) fun y hy => ?_
    · show (mm (mm (den l) (den m)) (tr (den r))).rows = (mm (mm (den l) (den m)) (tr (den r))).cols
      rw [mm_rows, mm_rows, mm_cols, tr_cols, e]
    · have o := hC wm hy
      have fy := hf wm fm y hy
      have ey : (den y).rows = (den m).rows := (o.factor dm.dom).rows
      exact hF.matmul (ta := false) (tb := false) wl o.wf fl.up fy.up kl o.rank (by rw [trIf_false, trIf_false, e1, ey]) (KDom.flat (fit_notKron fl) (fit_notKron fy))
  · rename_i d l r m
    have da : IsPosDef _ := da
    refine Calm.bind (hF.dense wa fa) fun u hu => ?_
    obtain rfl := hB.dense wa hu
    refine Calm.bind (Calm.ex (hc.chol da)) fun u hu => ?_
    exact Calm.of (mkLT_of (by rw [rank_of_sh (hl.chol hu).2.2.1]; exact da.rank))
  · exact Calm.bind (hcalm wa.1.1 fa.2.1 da.1) fun _ _ => Calm.bind (hcalm wa.1.2 fa.2.2 da.2) fun _ _ => Calm.pure
  · exact absurd da (by simp_all [Mat.CholFine])

/-! ### Solving -/

theorem triInv {lower : Bool} {t : Tensor K} {T : Shp} (h0 : 0 ∉ T) (g : Good T t) (htri : if lower then LowerTri t else UpperTri t) (h : t.Invertible) :
    (triPart lower (bbT T t)).Invertible := by
  have e : triPart lower (bbT T t) = bbT T t := by
    cases lower with
    | true => exact triPart_lower (bbT_rank _ _) (LowerTri.bbT htri g)
    | false => exact triPart_upper (bbT_rank _ _) (UpperTri.bbT htri g)
  rw [e]
  exact h.bbT h0 g

theorem solveTri_calm (h0 : 0 ∉ S) (hc : lin.Complete) (hB : B.Ok) (hF : B.Fine S) {lower : Bool} {t : Tensor K} {b : Mat K} (wt : (Mat.num t).WF S) (wb : b.WF S)
    (fb : b.fit true) (kt : 2 ≤ t.rank) (kb : 2 ≤ (den b).rank) (htri : if lower then LowerTri t else UpperTri t) (hi : t.Invertible) (e : t.rows = (den b).rows) :
    Calm (solveTri lin B lower t b) := by
  unfold solveTri
  refine Calm.bind (alignBatch2_calm wt wb trivial fb kt kb) fun ab hab => ?_
  obtain ⟨a', b'⟩ := ab
  obtain ⟨T, hT, ga, gb, wa', wb', ea, eb⟩ := alignBatch2_ok wt wb hab
  have fT : Fits S T := by rw [hT]; exact wt.fits.bsh wb.fits
  obtain ⟨fa', fb'⟩ := fitp_alignBatch2 (fit_num true t) fb _ hab
  have wa2 : a'.WF S := wa'.mono (by rw [ea]; exact fT)
  have wb2 : b'.WF S := wb'.mono (by rw [eb]; exact fT)
  refine Calm.bind (hF.dense wa2 fa') fun u hu => Calm.bind (hF.dense wb2 fb') fun v hv => ?_
  rw [hB.dense wa2 hu, hB.dense wb2 hv, ea, eb]
  refine Calm.bind (Calm.ex (hc.trisolve (bbT_rank _ _) (triInv (fT.pos h0) ga htri hi) (bbT_rank _ _) e ?_)) fun _ _ => Calm.pure
  exact (Fits.refl T).compat (Fits.refl T)

theorem solveDense_calm (h0 : 0 ∉ S) (hc : lin.Complete) (hB : B.Ok) (hF : B.Fine S) {a b : Mat K} (wa : a.WF S) (wb : b.WF S)
    (fa : a.fit true) (fb : b.fit true) (ka : 2 ≤ (den a).rank) (kb : 2 ≤ (den b).rank) (hi : (den a).Invertible) (e : (den a).rows = (den b).rows) :
    Calm (solveDense lin B a b) := by
  unfold solveDense
  refine Calm.bind (alignBatch2_calm wa wb fa fb ka kb) fun ab hab => ?_
  obtain ⟨a', b'⟩ := ab
  obtain ⟨T, hT, ga, gb, wa', wb', ea, eb⟩ := alignBatch2_ok wa wb hab
  have fT : Fits S T := by rw [hT]; exact wa.fits.bsh wb.fits
  obtain ⟨fa', fb'⟩ := fitp_alignBatch2 fa fb _ hab
  have wa2 : a'.WF S := wa'.mono (by rw [ea]; exact fT)
  have wb2 : b'.WF S := wb'.mono (by rw [eb]; exact fT)
  refine Calm.bind (hF.dense wa2 fa') fun u hu => Calm.bind (hF.dense wb2 fb') fun v hv => ?_
  rw [hB.dense wa2 hu, hB.dense wb2 hv, ea, eb]
  refine Calm.bind (Calm.ex (hc.solve (hi.bbT (fT.pos h0) ga) (bbT_rank _ _) e ?_)) fun _ _ => Calm.pure
  exact (Fits.refl T).compat (Fits.refl T)

theorem stepSolve_fit (hK : B.Keeps) (hf : InvFit L) : SolveFit (lstep env lin B L) := by
  intro S a b wa ka fa fb x h
  change stepSolve env lin B L a b = .ok x at h
  unfold stepSolve at h
  split at h
  · simp only [bind_ok_iff, pure_eq_ok] at h
    obtain ⟨_, _, rfl⟩ := h
    trivial
  · have fb' := fit_convertAM env fb
    have fa' := fit_convertAM env fa
    have wa' := (wf_convert2 (env := env) wa ka).1
    split at h
    · cases h
      trivial
    · simp only [bind_ok_iff] at h
      rename_i d hd _
      rw [hd] at wa' fa'
      obtain ⟨i, hi, h⟩ := h
      exact hK.matmul (hf wa' (fit_diag false d) i hi) fb' x h
    · simp only [solveTri, bind_ok_iff, pure_eq_ok] at h
      obtain ⟨_, _, _, _, _, _, _, _, rfl⟩ := h
      trivial
    · simp only [solveTri, bind_ok_iff, pure_eq_ok] at h
      obtain ⟨_, _, _, _, _, _, _, _, rfl⟩ := h
      trivial
    · simp only [bind_ok_iff] at h
      rename_i d l r m hd _
      rw [hd] at wa' fa'
      obtain ⟨i, hi, h⟩ := h
      have fa0 : (Mat.wb d l r m).fit false := fa'
      exact hK.matmul (hf wa' fa0 i hi) fb' x h
    · simp only [solveDense, bind_ok_iff, pure_eq_ok] at h
      obtain ⟨_, _, _, _, _, _, _, _, rfl⟩ := h
      trivial

theorem invKind_notKron {a i : Mat K} (h : a.kind = some .diag ∨ a.kind = some .wb) (e : i.kind = a.kind) : i.isKron = false := by
  cases i <;> first | rfl | (exfalso; rcases h with h | h <;> (rw [h] at e; simp [Mat.kind] at e))

theorem stepSolve_calm (h0 : 0 ∉ S) (hc : lin.Complete) (hB : B.Ok) (hF : B.Fine S) (hI : InvC L) (hf : InvFit L) (hcalm : InvCalm S L) :
    SolveCalm S (lstep env lin B L) := by
  intro a b wa wb fa fb ka kb e da dk
  show Calm (stepSolve env lin B L a b)
  have inv : ∀ {a b : Mat K}, a.WF S → b.WF S → a.fit true → b.fit true → 2 ≤ (den b).rank → (den a).rows = (den b).rows → a.InvDom →
      (a.kind = some .diag ∨ a.kind = some .wb) → b.isKron = false → Calm (do B.matmul false false (← L.inv a) b) := by
    intro a b wa wb fa fb kb e da hk nk
    refine Calm.bind (hcalm wa fa da) fun i hi => ?_
    obtain ⟨o, k⟩ := hI wa hi
    refine hF.matmul (ta := false) (tb := false) o.wf wb (hf wa fa i hi) fb o.rank' kb ?_ (KDom.flat (invKind_notKron hk k) nk)
    rw [trIf_false, trIf_false, cols_of_sh o.inv.shape, ← o.inv.square, e]
  unfold stepSolve
  split
  · exact Calm.bind (Calm.ex (hc.solve da kb e (wa.fits.compat wb.fits))) fun _ _ => Calm.pure
  · obtain ⟨wa', ea⟩ := wf_convert2 (env := env) wa ka
    obtain ⟨wb', eb⟩ := wf_convert2 (env := env) wb kb
    have kb' : 2 ≤ (den (convertAM env b)).rank := by rw [eb]; exact kb
    have ka' : 2 ≤ (den (convertAM env a)).rank := by rw [ea]; exact ka
    have fa' := fit_convertAM env fa
    have fb' := fit_convertAM env fb
    have e' : (den (convertAM env a)).rows = (den (convertAM env b)).rows := by rw [ea, eb]; exact e
    have dk' : NoKronRhs (convertAM env a) (convertAM env b) := by
      intro h
      rw [(isKron_convert env b).1]
      refine dk ?_
      cases a with
      | num t => rw [convert_num (show 2 ≤ t.rank from ka)] at h; simp [Mat.kind] at h
      | _ => exact h
    have da' : (convertAM env a).SolveFine := by
      cases a with
      | num t => rw [convert_num (show 2 ≤ t.rank from ka)]; exact da
      | _ => exact da
    split
    · exact Calm.ok
    · rename_i d hd _
      rw [hd] at wa' e' da' dk' fa'
      exact inv wa' wb' fa' fb' kb' e' da' (.inl rfl) (dk' (.inl rfl))
    · rename_i t hd _
      rw [hd] at wa' e' da'
      exact solveTri_calm h0 hc hB hF wa'.ltNum wb' fb' wa'.1 kb' wa'.2.2.2 da' e'
    · rename_i t hd _
      rw [hd] at wa' e' da'
      exact solveTri_calm h0 hc hB hF wa'.utNum wb' fb' wa'.1 kb' wa'.2.2.2 da' e'
    · rename_i d l r m hd _
      rw [hd] at wa' e' da' dk' fa'
      exact inv wa' wb' fa' fb' kb' e' da' (.inr rfl) (dk' (.inr rfl))
    · rename_i n1 n2 n3 n4 n5
      have hi : (den (convertAM env a)).Invertible := by
        revert da' n4
        cases convertAM env a <;> intro da' n4 <;> first | exact da' | exact (n4 _ _ _ _ rfl).elim
      exact solveDense_calm h0 hc hB hF wa' wb' fa' fb' ka' kb' hi e'

theorem transposeM_kind3 {a x : Mat K} (h : transposeM a = .ok x) : (∀ d, a = .diag d → x = .diag d) ∧ (∀ t, a = .lt t → x.kind = some .ut) ∧ (∀ t, a = .ut t → x.kind = some .lt) := by
  refine ⟨?_, ?_, ?_⟩ <;> rintro t rfl
  · simpa [transposeM, eq_comm] using h
  · simp only [transposeM, mkUT_ok] at h
    rw [← h.2]; rfl
  · simp only [transposeM, mkLT_ok] at h
    rw [← h.2]; rfl

theorem cholSolveTri_calm (h0 : 0 ∉ S) (hS : SolveC L) (hf : SolveFit L) (hcalm : SolveCalm S L) {a b : Mat K} (wa : a.WF S) (wb : b.WF S) (fa : a.fit true) (fb : b.fit true)
    (ka : 2 ≤ (den a).rank) (kb : 2 ≤ (den b).rank) (hk : a.kind = some .diag ∧ b.isKron = false ∨ a.kind = some .lt ∨ a.kind = some .ut) (e : (den a).rows = (den b).rows)
    (hi : (den a).Invertible) (hz : b.kind ≠ some .zero) : Calm (cholSolveTri L a b) := by
  unfold cholSolveTri
  have sf : ∀ {a : Mat K}, (den a).Invertible → (a.kind = some .diag ∨ a.kind = some .lt ∨ a.kind = some .ut) → a.SolveFine := by
    intro a hi hk
    cases a <;> first | exact hi | simp [Mat.kind] at hk
  have nk : NoKronRhs a b := by
    intro h
    rcases hk with hk | hk | hk
    · exact hk.2
    · rw [hk] at h; simp at h
    · rw [hk] at h; simp at h
  refine Calm.bind (hcalm wa wb fa fb ka kb e (sf hi (hk.imp (·.1) id)) nk) fun y hy => ?_
  obtain ⟨a', ha', wa', ea, _⟩ := transposeM_ok wa
  refine Calm.step ha' ?_
  have ea' : den a' = tr (den a) := by rw [ea, nTranspose, if_pos ka]
  obtain ⟨wy, sy⟩ := hS wa wb ka kb hy
  have sy := sy.resolve_left fun e => hz e.1
  have gy : Good S (den y) := sy.good (wa.good ka) (wb.good kb)
  have fy := hf wa ka fa fb y hy
  have ka' : 2 ≤ (den a').rank := by rw [ea']; exact ((wa.good ka).tr).rank
  have k3 := transposeM_kind3 ha'
  have hk' : a'.kind = some .diag ∨ a'.kind = some .lt ∨ a'.kind = some .ut := by
    rcases hk with ⟨hk, _⟩ | hk | hk
    · obtain ⟨d, rfl⟩ := kind_diag hk
      rw [k3.1 d rfl]; exact .inl rfl
    · cases a <;> simp [Mat.kind] at hk
      exact .inr (.inr (k3.2.1 _ rfl))
    · cases a <;> simp [Mat.kind] at hk
      exact .inr (.inl (k3.2.2 _ rfl))
  refine hcalm wa' wy (fitp_transposeM fa _ ha') fy.up ka' gy.rank ?_ (sf ?_ hk') fun _ => fit_notKron fy
  · rw [ea', tr_rows, sy.rows, hi.square]
  · rw [ea']; exact hi.tr ((wa.good ka).fits.pos h0)

theorem stepCholSolve_calm (h0 : 0 ∉ S) (hl : lin.Lawful) (hc : lin.Complete) (hS : SolveC L) (hf : SolveFit L) (hcalm : SolveCalm S L) (hcs : CsCalm S L) :
    CsCalm S (lstep env lin B L) := by
  intro a b wa wb fa fb ka kb d
  show Calm (stepCholSolve env lin L a b)
  unfold stepCholSolve
  split
  · rename_i s t
    obtain ⟨d1, d2, d3⟩ := d
    have ka' : 2 ≤ s.rank := ka
    have kb' : 2 ≤ t.rank := kb
    have g : Good S s := ⟨ka', wa.2⟩
    have g' : Good S t := ⟨kb', wb.2⟩
    refine Calm.bind (Calm.ex (hc.trisolve ka' (by rw [triPart_lower ka' d1]; exact d2) kb' d3 (wa.2.compat wb.2))) fun y hy => ?_
    obtain ⟨_, _, s1⟩ := hl.trisolve hy
    rw [triPart_lower ka' d1] at s1
    have gy := s1.good g g'
    refine Calm.bind (Calm.ex (hc.trisolve ?_ ?_ gy.rank ?_ ?_)) fun _ _ => Calm.pure
    all_goals rw [nTranspose, if_pos ka']
    · exact g.tr.rank
    · rw [triPart_upper g.tr.rank (LowerTri.tr' ka' d1)]
      exact d2.tr (g.fits.pos h0)
    · rw [tr_rows, s1.rows, d2.square]
    · exact g.tr.fits.compat gy.fits
  · rename_i hnn
    obtain ⟨wb', eb⟩ := wf_convert2 (env := env) wb kb
    have kb' : 2 ≤ (den (convertAM env b)).rank := by rw [eb]; exact kb
    have fb' := fit_convertAM env fb
    have zb : b.kind ≠ some .zero → (convertAM env b).kind ≠ some .zero := by
      intro h
      cases b with
      | num t => rw [convert_num (show 2 ≤ t.rank from kb)]; simp [Mat.kind]
      | _ => exact h
    cases a with
    | num s =>
      cases b with
      | num t => exact absurd rfl (hnn s t rfl)
      | _ => exact absurd d (by simp [CsFine])
    | diag v =>
      obtain ⟨d1, d2, d3, d4⟩ := d
      exact cholSolveTri_calm h0 hS hf hcalm wa wb' fa fb' ka kb' (.inl ⟨rfl, by rw [(isKron_convert env b).1]; exact d4⟩) (by rw [eb]; exact d2) d1 (zb d3)
    | lt t =>
      obtain ⟨d1, d2, d3⟩ := d
      exact cholSolveTri_calm h0 hS hf hcalm wa wb' fa fb' ka kb' (.inr (.inl rfl)) (by rw [eb]; exact d2) d1 (zb d3)
    | ut t =>
      obtain ⟨d1, d2, d3⟩ := d
      exact cholSolveTri_calm h0 hS hf hcalm wa wb' fa fb' ka kb' (.inr (.inr rfl)) (by rw [eb]; exact d2) d1 (zb d3)
    | kron l r =>
      cases b with
      | kron l' r' =>
        obtain ⟨⟨wl, wr⟩, kl, kr⟩ := wa
        obtain ⟨⟨wl', wr'⟩, kl', kr'⟩ := wb
        exact Calm.bind (hcs wl wl' fa.2.1 fb.2.1 kl kl' d.1) fun _ _ => Calm.bind (hcs wr wr' fa.2.2 fb.2.2 kr kr' d.2) fun _ _ => Calm.pure
      | _ => exact absurd d (by simp [CsFine])
    | _ => exact absurd d (by simp [CsFine])

theorem stepCholSolve_fit (hf : SolveFit L) (hcf : CsFit L) : CsFit (lstep env lin B L) := by
  intro S κ a b wa ka fa fb x h
  change stepCholSolve env lin L a b = .ok x at h
  have tri : ∀ {a b : Mat K}, a.WF S → 2 ≤ (den a).rank → a.fit true → b.fit true → cholSolveTri L a b = .ok x → x.fit κ := by
    intro a b wa ka fa fb h
    simp only [cholSolveTri, bind_ok_iff] at h
    obtain ⟨y, hy, a', ha', h⟩ := h
    obtain ⟨a'', ha'', wa', ea, _⟩ := transposeM_ok wa
    rw [ha'] at ha''
    cases ha''
    have ea' : den a' = tr (den a) := by rw [ea, nTranspose, if_pos ka]
    have ka' : 2 ≤ (den a').rank := by rw [ea']; exact ((wa.good ka).tr).rank
    exact (hf wa' ka' (fitp_transposeM fa _ ha') (hf wa ka fa fb y hy).up x h).of
  unfold stepCholSolve at h
  split at h
  · simp only [bind_ok_iff, pure_eq_ok] at h
    obtain ⟨_, _, _, _, rfl⟩ := h
    trivial
  · obtain ⟨wa', ea⟩ := wf_convert2 (env := env) wa ka
    have ka' : 2 ≤ (den (convertAM env a)).rank := by rw [ea]; exact ka
    have fa' := fit_convertAM env fa
    have fb' := fit_convertAM env fb
    split at h
    · rename_i e; rw [e] at wa' ka' fa'; exact tri wa' ka' fa' fb'.up h
    · rename_i e; rw [e] at wa' ka' fa'; exact tri wa' ka' fa' fb'.up h
    · rename_i e; rw [e] at wa' ka' fa'; exact tri wa' ka' fa' fb'.up h
    · rename_i l r l' r' e e'
      rw [e] at wa' fa'
      rw [e'] at fb'
      simp only [bind_ok_iff, pure_eq_ok] at h
      obtain ⟨y, hy, z, hz, rfl⟩ := h
      exact ⟨fb'.1, hcf wa'.1.1 wa'.2.1 fa'.2.1 fb'.2.1 y hy, hcf wa'.1.2 wa'.2.2 fa'.2.2 fb'.2.2 z hz⟩
    · cases h

/-! ### Positive-definite inverses -/

theorem Mat.PosDom.pdDom {a : Mat K} (h : a.PosDom) : a.PdDom := by
  induction a with
  | num t => exact IsPosDef.symm h
  | dense t => exact IsPosDef.symm h
  | wb d l r m _ _ ih => exact ⟨h.2.1, h.2.2.1, h.2.2.2.1, ih h.2.2.2.2⟩
  | kron l r i j => exact ⟨i h.1, j h.2⟩
  | diag => trivial
  | _ => exact h.elim

/-- A Woodbury matrix with equal factors and positive-definite parts is positive definite. -/
theorem wb_posDef (h0 : 0 ∉ S) {d : Tensor K} {l r m : Mat K} (wa : (Mat.wb d l r m).WF S) (hd : IsPosDef (diagC d)) (e : den l = den r) (hm : IsPosDef (den m)) :
    IsPosDef (den (.wb d l r m)) := by
  obtain ⟨⟨hd1, fd⟩, ⟨wl, wr, wm⟩, ⟨kl, kr, km⟩, ⟨e1, e2⟩, e3, e4⟩ := wa
  obtain ⟨D1, D2⟩ := hd.mrep h0 (n := d.cols) ⟨hd.rank, by simpa using fd⟩ rfl
  obtain ⟨M1, M2⟩ := hm.mrep h0 (wm.good km) rfl
  have L1 : MRep S d.cols (den m).rows (den l) _ := MRep.of (wl.good kl) e3 e1
  have A := D1.add ((L1.mm M1).mm L1.tr)
  rw [← show den (.wb d l r m) = zipB (· + ·) (diagC d) (mm (mm (den l) (den m)) (tr (den l))) by simp only [den, e]] at A
  refine (posDef_iff h0 A).2 fun β hβ => ?_
  have := (D2 β hβ).add_cong (mxOf (den l) β d.cols (den m).rows).transpose (M2 β hβ)
  rwa [Matrix.transpose_transpose] at this

theorem posDom_den (h0 : 0 ∉ S) {a : Mat K} (wa : a.WF S) (fa : a.fit false) (h : a.PosDom) : IsPosDef (den a) := by
  induction a with
  | num t => exact h
  | dense t => exact h
  | diag d => exact h
  | wb d l r m _ _ ih => exact wb_posDef h0 wa h.1 h.2.1 (ih wa.wbLr.1.2.2 fa.2.2 h.2.2.2.2)
  | kron l r => exact absurd fa.1 (by simp)
  | _ => exact h.elim

theorem Mat.PosDom.cholFine (h0 : 0 ∉ S) {a : Mat K} (wa : a.WF S) (fa : a.fit true) (h : a.PosDom) : a.CholFine := by
  induction a with
  | num t => exact h
  | dense t => exact h
  | diag d =>
    have h : IsPosDef (diagC d) := h
    intro i hi
    obtain ⟨x, s, e⟩ : ∃ x s, d.sh = x :: s := by
      have := wa.1
      cases e : d.sh with
      | nil => simp [Tensor.rank, e] at this
      | cons x s => exact ⟨x, s, rfl⟩
    rw [e, inRange_cons'] at hi
    have hc : d.cols = x := by simp [Tensor.cols, e]
    have gs : GoodV s d := ⟨wa.1, by rw [e]; exact Fits.refl _⟩
    have hs : 0 ∉ s := hi.2.pos
    have hi0 : i 0 < d.cols := by rw [hc]; exact hi.1
    have p := ((posDef_iff hs (MRep.diagC gs)).1 h _ hi.2).2 (Pi.single ⟨i 0, hi0⟩ 1) (by simp)
    rw [Matrix.mulVec_single_one, single_one_dotProduct, Matrix.col_apply, Matrix.diagonal_apply_eq] at p
    have : d.vat (itail i) (i 0) = d.get i := by
      show d.get _ = d.get _
      congr 1
      funext q
      rcases q with _ | q <;> rfl
    rw [← this]
    exact p.le
  | wb d l r m => exact wb_posDef h0 wa h.1 h.2.1 (posDom_den h0 wa.wbLr.1.2.2 fa.2.2 h.2.2.2.2)
  | kron l r i j => exact ⟨i wa.1.1 fa.2.1 h.1, j wa.1.2 fa.2.2 h.2⟩
  | _ => exact h.elim

theorem diagInvertible (h0 : 0 ∉ S) {d : Tensor K} (w : (Mat.diag d).WF S) (h : IsPosDef (diagC d)) : (diagC d).Invertible := by
  refine h.invertible ?_
  rw [diagC_bt]
  exact w.2.pos h0

/-- The Schur complement of a Woodbury matrix with positive-definite parts is Dense and positive definite. -/
theorem pdSchur_pos (h0 : 0 ∉ S) (hB : B.Ok) (hA : AddKinds env' B) (hM : MmKinds env' B) {d : Tensor K} {l r m di sec mi s : Mat K} (wa : (Mat.wb d l r m).WF S)
    (fm : m.fit false) (da : (Mat.wb d l r m).PosDom) (o1 : InvOk S (.diag d) di) (k1 : di.kind = some .diag) (o2 : InvOk S m mi)
    (hsec : matmul3 B true false false r di l = .ok sec) (hs : B.add mi sec = .ok s) :
    s.WF S ∧ s.kind = some .dense ∧ IsPosDef (den s) ∧ (den s).rows = (den m).rows ∧ (den m).rows = (den m).cols := by
  obtain ⟨dd, ee, pl, pr, dm⟩ := da
  obtain ⟨v, rfl⟩ := kind_diag k1
  obtain ⟨ws, es, sr, sc⟩ := schur_ok hB wa o1 o2 hsec hs
  have wd := wa.wbDiag
  obtain ⟨⟨hd, fd⟩, ⟨wl, wr, wm⟩, ⟨kl, kr, km⟩, ⟨e1, e2⟩, e3, e4⟩ := wa
  refine ⟨ws, kind_add_dense hA (kind_second hM wl wr o1.wf kl kr pl pr hB hsec) hs, ?_, sr, o2.inv.square⟩
  obtain ⟨M1, M2, HM⟩ := o2.inv.mrep' (wm.good km) rfl
  obtain ⟨D1, D2, HD⟩ := o1.inv.mrep' (n := d.cols) (o1.good wd) rfl
  have L1 : MRep S d.cols (den m).rows (den l) _ := MRep.of (wl.good kl) e3 e1
  have S1 := M2.add ((L1.tr.mm D2).mm L1)
  rw [← ee] at es
  rw [← es] at S1
  have HP := (posDef_iff h0 M1).1 (posDom_den h0 wm fm dm)
  have HQ := (posDef_iff h0 D1).1 dd
  exact (posDef_iff h0 S1).2 fun β hβ => ((HP β hβ).inv (HM β hβ)).add_cong _ ((HQ β hβ).inv (HD β hβ))

theorem pdSchur_calm (h0 : 0 ∉ S) (hB : B.Ok) (hF : B.Fine S) (hK : B.Keeps) (hI : InvC L) (hIc : InvCalm S L) (hP : PdC L)
    (hPf : PdFit S L) (hPc : PdCalm S L) {d : Tensor K} {l r m : Mat K} (wa : (Mat.wb d l r m).WF S) (fa : (Mat.wb d l r m).fit true) (da : (Mat.wb d l r m).PosDom) :
    Calm (pdSchurM B L d l r m) := by
  obtain ⟨dd, ee, pl, pr, dm⟩ := da
  obtain ⟨fl, fr, fm⟩ := fa
  obtain ⟨⟨hd, fd⟩, ⟨wl, wr, wm⟩, ⟨kl, kr, km⟩, ⟨e1, e2⟩, e3, e4⟩ := wa
  have wd : (Mat.diag d).WF S := ⟨hd, fd⟩
  unfold pdSchurM
  refine Calm.bind (hIc wd trivial (diagInvertible h0 wd dd)) fun di hdi => ?_
  obtain ⟨o1, k1⟩ := hI wd hdi
  obtain ⟨v, rfl⟩ := kind_diag k1
  have vc : v.cols = d.cols := rows_of_sh o1.inv.shape
  have fv : (Mat.diag v).fit false := trivial
  refine Calm.bind (matmul3_calm hF hB hK wr o1.wf wl fr fv fl kr o1.rank' kl (e4.trans vc.symm) (vc.trans e3.symm)) fun sec hsec =>
        Calm.bind (hPc wm fm.up dm) fun mi hmi => ?_
  obtain ⟨o2, _⟩ := hP wm dm.pdDom hmi
  obtain ⟨ws, _, _, es⟩ := matmul3_ok hB wr o1.wf wl kr o1.rank' kl hsec
  simp only [trIf_true, trIf_false] at es
  have sq := o2.inv.square
  have r1 : (den sec).rows = (den m).rows := by rw [es, mm_rows, mm_rows, tr_rows, e2, sq]
  have c1 : (den sec).cols = (den m).rows := by rw [es, mm_cols, e1]
  have r2 : (den mi).rows = (den m).rows := rows_of_sh o2.inv.shape
  have c2 : (den mi).cols = (den m).rows := (cols_of_sh o2.inv.shape).trans sq.symm
  have gs : Good S (den sec) := ws.good (by rw [es]; simp [mm, mkMat, Tensor.rank])
  exact hF.add o2.wf ws (hPf wm fm dm _ hmi).up (fitp_matmul3 hK fr fv fl _ hsec).up (noStretch_of_eq (r2.trans r1.symm) (c2.trans c1.symm))
    (compat_sh o2.good' gs (r2.trans r1.symm) (c2.trans c1.symm))

/-- A square factor of a positive-definite matrix is invertible. -/
theorem factor_invertible (h0 : 0 ∉ S) {t c : Tensor K} (g : Good S t) (hp : IsPosDef t) (of : IsFactor t c) (hc : 2 ≤ c.rank) (hs : c.rows = c.cols) : c.Invertible := by
  obtain ⟨A, C, H⟩ := of.mrep (S := S) g hc
  have ec : c.cols = t.rows := by rw [← of.rows]; exact hs.symm
  rw [ec] at C H
  obtain ⟨A', P⟩ := hp.mrep h0 g rfl
  refine (invertible_iff h0 C).2 fun β hβ => ?_
  obtain ⟨R, hR⟩ := (P β hβ).inv_exists
  refine ⟨(mxOf c β t.rows t.rows).transpose * R, ?_⟩
  rw [← Matrix.mul_assoc, H β hβ]
  exact hR

theorem posDom_dense {s : Mat K} (k : s.kind = some .dense) (h : IsPosDef (den s)) : s.PosDom := by
  cases s <;> simp [Mat.kind] at k
  exact h

/-- `B.pd_inv` of a Woodbury matrix raises nothing. -/
theorem pdInvWB_calm (h0 : 0 ∉ S) (hB : B.Ok) (hF : B.Fine S) (hK : B.Keeps) (hA : AddKinds env' B) (hM : MmKinds env' B)
    (hI : InvC L) (hIc : InvCalm S L) (hP : PdC L)
    (hPf : PdFit S L) (hPc : PdCalm S L) {d : Tensor K} {l r m : Mat K} (wa : (Mat.wb d l r m).WF S) (fa : (Mat.wb d l r m).fit true) (da : (Mat.wb d l r m).PosDom) :
    Calm (pdInvWB env B L d l r m) := by
  have cs := pdSchur_calm h0 hB hF hK hI hIc hP hPf hPc wa fa da
  have da' := da
  have wa' := wa
  obtain ⟨dd, ee, pl, pr, dm⟩ := da
  obtain ⟨fl, fr, fm⟩ := fa
  obtain ⟨⟨hd, fd⟩, ⟨wl, wr, wm⟩, ⟨kl, kr, km⟩, ⟨e1, e2⟩, e3, e4⟩ := wa
  have wd : (Mat.diag d).WF S := ⟨hd, fd⟩
  unfold pdInvWB
  refine Calm.bind (hIc wd trivial (diagInvertible h0 wd dd)) fun di hdi => ?_
  obtain ⟨o1, k1⟩ := hI wd hdi
  obtain ⟨v, rfl⟩ := kind_diag k1
  have vc : v.cols = d.cols := rows_of_sh o1.inv.shape
  have fv : (Mat.diag v).fit false := trivial
  refine Calm.bind (hF.matmul (ta := false) (tb := false) o1.wf wl trivial fl.up o1.rank' kl (vc.trans e3.symm) (KDom.flat rfl (fit_notKron fl))) fun dl hdl => ?_
  refine Calm.bind (hF.matmul (ta := false) (tb := false) o1.wf wr trivial fr.up o1.rank' kr (vc.trans e4.symm) (KDom.flat rfl (fit_notKron fr))) fun dr hdr => ?_
  refine Calm.bind cs fun s hs => ?_
  simp only [pdSchurM, hdi, bind_ok_iff, Except.ok.injEq, exists_eq_left'] at hs
  obtain ⟨sec, hsec, mi, hmi, hs⟩ := hs
  obtain ⟨o2, _⟩ := hP wm dm.pdDom hmi
  obtain ⟨ws, ks, ps, sr, msq⟩ := pdSchur_pos h0 hB hA hM wa' fm da' o1 rfl o2 hsec hs
  have ds := posDom_dense ks ps
  refine Calm.bind (hPc ws (kind_dense_fit ks true) ds) fun si hsi => ?_
  obtain ⟨o3, _⟩ := hP ws ds.pdDom hsi
  have m1 := hB.matmul o1.wf wl o1.rank' kl hdl
  have m2 := hB.matmul o1.wf wr o1.rank' kr hdr
  have m1e := m1.eq
  have m2e := m2.eq
  simp only [trIf_false] at m1e m2e
  have i1 : (den dl).cols = (den si).rows := by rw [m1e, mm_cols, e1, rows_of_sh o3.inv.shape, sr]
  have i2 : (den dr).cols = (den si).cols := by rw [m2e, mm_cols, e2, cols_of_sh o3.inv.shape, ← o3.inv.square, sr, msq]
  refine Calm.step (mkLR_ok m1.wf m2.wf o3.wf ⟨m1.rank, m2.rank, o3.rank'⟩ i1 i2) ?_
  have wlr : (Mat.lr dl dr si).WF S := ⟨⟨m1.wf, m2.wf, o3.wf⟩, ⟨m1.rank, m2.rank, o3.rank'⟩, i1, i2⟩
  refine subtractM_calm' hF o1.wf wlr ⟨hK.matmul fv fl _ hdl, hK.matmul fv fr _ hdr, hPf ws (kind_dense_fit ks false) ds _ hsi⟩ (wlr.rank rfl) ?_ ?_ rfl
  · show (mm (mm (den dl) (den si)) (tr (den dr))).rows = _
    rw [mm_rows, mm_rows, m1e, mm_rows]; rfl
  · show (mm (mm (den dl) (den si)) (tr (den dr))).cols = _
    rw [mm_cols, tr_cols, m2e, mm_rows]; rfl

theorem pdInvWB_fit (h0 : 0 ∉ S) (hB : B.Ok) (hK : B.Keeps) (hA : AddKinds env' B) (hM : MmKinds env' B) (hI : InvC L) (hP : PdC L)
    (hPf : PdFit S L) {κ : Bool} {d : Tensor K} {l r m : Mat K} (wa : (Mat.wb d l r m).WF S) (fa : (Mat.wb d l r m).fit κ) (da : (Mat.wb d l r m).PosDom) :
    Post (Mat.fit κ) (pdInvWB env B L d l r m) := by
  intro x h
  simp only [pdInvWB, pdSchurM, bind_ok_iff] at h
  obtain ⟨di, hdi, dl, hdl, dr, hdr, s, ⟨di', hdi', sec, hsec, mi, hmi, hs⟩, si, hsi, lr, hlr, h⟩ := h
  rw [hdi] at hdi'
  cases hdi'
  obtain ⟨fl, fr, fm⟩ := fa
  obtain ⟨o1, k1⟩ := hI wa.wbDiag hdi
  obtain ⟨o2, _⟩ := hP wa.wbLr.1.2.2 da.2.2.2.2.pdDom hmi
  obtain ⟨ws, ks, ps, sr, msq⟩ := pdSchur_pos h0 hB hA hM wa fm da o1 k1 o2 hsec hs
  have ds := posDom_dense ks ps
  obtain ⟨o3, _⟩ := hP ws ds.pdDom hsi
  obtain ⟨v, rfl⟩ := kind_diag k1
  have fsi := hPf ws (kind_dense_fit ks false) ds si hsi
  have m1 := hB.matmul o1.wf wa.wbLr.1.1 o1.rank' wa.wbLr.2.1.1 hdl
  have m2 := hB.matmul o1.wf wa.wbLr.1.2.1 o1.rank' wa.wbLr.2.1.2.1 hdr
  obtain ⟨rfl, wlr⟩ := mkLR_inv m1.wf m2.wf o3.wf hlr
  have flr : (Mat.lr dl dr si).fit false := ⟨hK.matmul (fit_diag false v) fl _ hdl, hK.matmul (fit_diag false v) fr _ hdr, fsi⟩
  obtain ⟨z, ez, fz, _⟩ := negativeM_keeps wlr flr
  have h : (do B.add (.diag v) (← negativeM (.lr dl dr si))) = .ok x := h
  rw [ez] at h
  exact (hK.add (fit_diag false v) fz x h).of

theorem stepPdInv_fit (h0 : 0 ∉ S) (hB : B.Ok) (hK : B.Keeps) (hA : AddKinds env' B) (hM : MmKinds env' B) (hI : InvC L) (hIf : InvFit L) (hC : CholC L) (hCf : CholFit L)
    (hcf : CsFit L) (hP : PdC L) (hPf : PdFit S L) : PdFit S (lstep env lin B L) := by
  intro κ a wa fa da x h
  change stepPdInv env B L a = .ok x at h
  have gen : ∀ t : Tensor K, 2 ≤ t.rank → Fits S t.bt → (do
      let ch ← L.chol (.dense t)
      let id ← B.dense (← eyeM (.dense t))
      L.cholSolve ch (.num id)) = .ok x → x.fit κ := by
    intro t h2 ft h
    simp only [bind_ok_iff] at h
    obtain ⟨ch, hch, _, _, id, _, h⟩ := h
    have o := hC (S := S) (a := .dense t) ⟨h2, ft⟩ hch
    exact hcf o.wf o.rank (hCf (S := S) (a := .dense t) ⟨h2, ft⟩ (fit_dense true t) ch hch) (fit_num κ id) x h
  cases a with
  | num t =>
    have da : IsPosDef t := da
    simp only [stepPdInv, convert_num da.rank] at h
    exact gen t da.rank wa.2 h
  | dense t => exact gen t wa.1 wa.2 h
  | diag d => exact hIf wa fa x h
  | wb d l r m => exact pdInvWB_fit h0 hB hK hA hM hI hP hPf wa fa da x h
  | kron l r =>
    simp only [stepPdInv, bind_ok_iff, pure_eq_ok] at h
    obtain ⟨y, hy, z, hz, rfl⟩ := h
    exact ⟨fa.1, hPf wa.1.1 fa.2.1 da.1 y hy, hPf wa.1.2 fa.2.2 da.2 z hz⟩
  | _ => exact da.elim

theorem stepPdInv_calm (h0 : 0 ∉ S) (hB : B.Ok) (hF : B.Fine S) (hK : B.Keeps) (hA : AddKinds env' B) (hM : MmKinds env' B)
    (hI : InvC L) (hIc : InvCalm S L) (hC : CholC L) (hCc : CholCalm S L)
    (hcs : CsCalm S L) (hP : PdC L) (hPf : PdFit S L) (hPc : PdCalm S L) : PdCalm S (lstep env lin B L) := by
  intro a wa fa da
  show Calm (stepPdInv env B L a)
  have gen : ∀ t : Tensor K, 2 ≤ t.rank → Fits S t.bt → IsPosDef t → Calm (do
      let ch ← L.chol (.dense t)
      let id ← B.dense (← eyeM (.dense t))
      L.cholSolve ch (.num id)) := by
    intro t h2 ft hp
    have w : (Mat.dense t).WF S := ⟨h2, ft⟩
    refine Calm.bind (hCc w trivial hp) fun ch hch => ?_
    have o := hC w hch
    have e : eyeM (.dense t) = .ok (.diag (fillT [t.rows] (1 : K))) := by
      simp only [eyeM, bind_ok_iff, assertSquare_ok w, exists_const, w.shapeMatrix, Except.ok.injEq, exists_eq_left', fillDiag_one]
      exact ⟨⟨h2, hp.square⟩, rfl⟩
    refine Calm.step e ?_
    have wi : (Mat.diag (fillT [t.rows] (1 : K))).WF S := ⟨by simp [Tensor.rank], Fits.nil _⟩
    refine Calm.bind (hF.dense wi trivial) fun u hu => ?_
    obtain rfl := hB.dense wi hu
    have k := o.kind.2.1 (.inl rfl)
    have of := o.factor hp.symm
    obtain ⟨c, rfl⟩ : ∃ c, ch = .lt c := by cases ch <;> simp [Mat.kind] at k; exact ⟨_, rfl⟩
    refine hcs o.wf (wf_num_of ⟨by simp [den, Tensor.rank], Fits.nil _⟩) trivial trivial o.rank (by simp [den, Tensor.rank]) ⟨?_, of.rows, by simp [Mat.kind]⟩
    exact factor_invertible h0 ⟨h2, ft⟩ hp of o.rank o.wf.2.2.1
  cases a with
  | num t =>
    have da : IsPosDef t := da
    simp only [stepPdInv, convert_num da.rank]
    exact gen t da.rank wa.2 da
  | dense t => exact gen t wa.1 wa.2 da
  | diag d => exact hIc wa fa (diagInvertible h0 wa da)
  | wb d l r m => exact pdInvWB_calm h0 hB hF hK hA hM hI hIc hP hPf hPc wa fa da
  | kron l r => exact Calm.bind (hPc wa.1.1 fa.2.1 da.1) fun _ _ => Calm.bind (hPc wa.1.2 fa.2.2 da.2) fun _ _ => Calm.pure
  | _ => exact da.elim

/-! ### Log-determinants -/

/-- Matrices with a log-determinant: invertible numeric matrices, positive-definite Dense and Woodbury matrices, Diagonal and triangular matrices with positive diagonal,
Kronecker products of these. -/
def Mat.DetFine : Mat K → Prop
  | .num t => t.Invertible
  | .dense t => IsPosDef t
  | .diag d => ∀ i, InRange d.sh i → 0 < d.get i
  | .lt t => ∀ β i, InRange t.bt β → i < t.rows → 0 < t.at' β i i
  | .ut t => ∀ β i, InRange t.bt β → i < t.rows → 0 < t.at' β i i
  | .wb d l r m => (Mat.wb d l r m).PosDom ∧ (∀ i, InRange d.sh i → 0 < d.get i) ∧ m.DetFine
  | .kron l r => l.DetFine ∧ r.DetFine
  | _ => False

def LdCalm (S : Shp) (L : LOps K) : Prop := ∀ {a}, Mat.WF S a → a.fit true → a.DetFine → Calm (L.logdet a)

theorem Mat.DetFine.ldDom {a : Mat K} (h : a.DetFine) : a.LdDom := by
  induction a with
  | dense t => exact IsPosDef.symm h
  | wb d l r m _ _ ih => exact ⟨h.1.pdDom, ih h.2.2⟩
  | kron l r i j => exact ⟨i h.1, j h.2⟩
  | num => trivial
  | diag => trivial
  | lt => trivial
  | ut => trivial
  | _ => exact h.elim

theorem plain_isND {a : Mat K} (h2 : 2 ≤ (den a).rank) (h : a.plain = true) : IsND a := by
  cases a <;> simp [Mat.plain] at h
  · exact .inl ⟨_, rfl, by have : 2 ≤ Tensor.rank _ := h2; simp only [den] at this; omega⟩
  · exact .inr ⟨_, rfl⟩

theorem Mat.DetFine.ldFin {a : Mat K} (w : a.WF S) (h : a.DetFine) : LdFin a := by
  induction a with
  | num => exact .num _
  | dense => exact .dense _
  | diag => exact .diag _
  | lt => exact .lt _
  | ut => exact .ut _
  | wb d l r m _ _ ih => exact .wb _ (plain_isND w.wbLr.2.1.1 h.1.2.2.1) (plain_isND w.wbLr.2.1.2.1 h.1.2.2.2.1) (ih w.wbLr.1.2.2 h.2.2)
  | kron l r i j => exact .kron (i w.1.1 h.1) (j w.1.2 h.2)
  | _ => exact h.elim

theorem nLog_calm {t : Tensor K} (h : ∀ i, InRange t.sh i → 0 < t.get i) : Calm (nLog lin t) := by
  unfold nLog
  rw [if_pos]
  · exact Calm.ok
  · intro n hn
    exact h _ (inRange_unlin hn)

theorem nSum_calm {t : Tensor K} {n : ℕ} (h : t.rank = n + 1) : Calm (nSum t (some (-1))) := by
  unfold nSum
  have : axPos t.rank (-1) = .ok 0 := by
    rw [h]; unfold axPos; simp
  exact Calm.step this Calm.pure

theorem logdetTri_calm (hB : B.Ok) (hF : B.Fine S) {a : Mat K} (wa : a.WF S) (fa : a.fit true) (k : 2 ≤ (den a).rank) (hd : a.DiagDef (den a).bt) (ho : a.DiagOk)
    (hp : ∀ i, InRange (diagE (den a)).sh i → 0 < (diagE (den a)).get i) : Calm (logdetTri lin B a) := by
  unfold logdetTri
  refine Calm.bind (hF.diag wa fa k hd) fun u hu => ?_
  obtain rfl := hB.diag wa k ho hu
  refine Calm.bind (nLog_calm hp) fun v hv => ?_
  exact nSum_calm (n := (den a).bt.length) (by simp [Tensor.rank, (nLog_ok hv).1, diagE_sh])

theorem diagE_pos {t : Tensor K} (hs : t.rows = t.cols) (h : ∀ β i, InRange t.bt β → i < t.rows → 0 < t.at' β i i) :
    ∀ i, InRange (diagE t).sh i → 0 < (diagE t).get i := by
  intro i hi
  rw [diagE_sh, inRange_cons', ← hs, min_self] at hi
  have e := vat_diagE (t := t) hi.2 (Fits.refl _) (i := i 0) (by rw [← hs, min_self]; exact hi.1)
  have e2 : (diagE t).vat (itail i) (i 0) = (diagE t).get i := by
    show (diagE t).get _ = (diagE t).get _
    congr 1
    funext q
    rcases q with _ | q <;> rfl
  rw [← e2, e]
  exact h _ _ hi.2 hi.1

theorem diagC_pos {d : Tensor K} (h1 : 1 ≤ d.rank) (h : ∀ i, InRange d.sh i → 0 < d.get i) : ∀ β i, InRange (diagC d).bt β → i < (diagC d).rows → 0 < (diagC d).at' β i i := by
  intro β i hβ hi
  obtain ⟨x, s, e⟩ : ∃ x s, d.sh = x :: s := by
    cases e : d.sh with
    | nil => simp [Tensor.rank, e] at h1
    | cons x s => exact ⟨x, s, rfl⟩
  have g : GoodV s d := ⟨h1, by rw [e]; exact Fits.refl _⟩
  have hb : (diagC d).bt = s := by simp [diagC_bt, e]
  rw [hb] at hβ
  have hi' : i < d.cols := hi
  have := (MRep.diagC g).at' β ⟨i, hi'⟩ ⟨i, hi'⟩ hβ
  simp only [Matrix.diagonal_apply_eq] at this
  rw [this]
  refine h _ ?_
  rw [e, inRange_cons]
  exact ⟨by simpa [Tensor.cols, e] using hi', hβ⟩

theorem stepLogdet_calm (h0 : 0 ∉ S) (hc : lin.Complete) (hB : B.Ok) (hF : B.Fine S) (hK : B.Keeps) (hA : AddKinds env' B) (hM : MmKinds env' B)
    (hI : InvC L) (hIc : InvCalm S L) (hC : CholC L) (hCc : CholCalm S L) (hP : PdC L) (hPf : PdFit S L) (hPc : PdCalm S L) (hLd : LdC lin L) (hLc : LdCalm S L)
    (hcp : ∀ {t x}, L.chol (.dense t) = .ok x → x.DetFine) :
    LdCalm S (lstep env lin B L) := by
  intro a wa fa da
  show Calm (stepLogdet lin B L a)
  cases a with
  | num t => exact Calm.ex (hc.logdet da)
  | diag d => exact logdetTri_calm hB hF wa fa (wa.rank rfl) trivial trivial (diagE_pos rfl (diagC_pos wa.1 da))
  | lt t => exact logdetTri_calm hB hF wa fa (wa.rank rfl) trivial trivial (diagE_pos wa.2.2.1 da)
  | ut t => exact logdetTri_calm hB hF wa fa (wa.rank rfl) trivial trivial (diagE_pos wa.2.2.1 da)
  | dense t =>
    refine Calm.bind (hCc wa fa da) fun ch hch => ?_
    have o := hC wa hch
    have k := o.kind.2.1 (.inl rfl)
    obtain ⟨c, rfl⟩ : ∃ c, ch = .lt c := by cases ch <;> simp [Mat.kind] at k; exact ⟨_, rfl⟩
    refine Calm.bind (hLc o.wf trivial (hcp hch)) fun v _ => ?_
    exact Calm.of (nMul_of (Compat.nil_left _))
  | wb d l r m =>
    obtain ⟨dp, dd, dm⟩ := da
    have wd := wa.wbDiag
    have wm := wa.wbLr.1.2.2
    refine Calm.bind (hLc wd trivial dd) fun x hx => Calm.bind (hLc wm fa.2.2.up dm) fun y hy => ?_
    refine Calm.bind (pdSchur_calm h0 hB hF hK hI hIc hP hPf hPc wa fa dp) fun s hs => ?_
    simp only [pdSchurM, bind_ok_iff] at hs
    obtain ⟨di, hdi, sec, hsec, mi, hmi, hs⟩ := hs
    obtain ⟨o1, k1⟩ := hI wd hdi
    obtain ⟨o2, _⟩ := hP wm dp.2.2.2.2.pdDom hmi
    obtain ⟨ws, ks, ps, sr, msq⟩ := pdSchur_pos h0 hB hA hM wa fa.2.2 dp o1 k1 o2 hsec hs
    have ds : s.DetFine := by
      cases s <;> simp [Mat.kind] at ks
      exact ps
    refine Calm.bind (hLc ws (kind_dense_fit ks true) ds) fun z hz => ?_
    have q1 := (hLd wd trivial hx).shape
    have q2 := (hLd wm dm.ldDom hy).shape
    have q3 := (hLd ws ds.ldDom hz).shape
    have f1 : Fits S x.sh := by rw [q1]; exact wd.fits
    have f2 : Fits S y.sh := by rw [q2]; exact wm.fits
    have f3 : Fits S z.sh := by rw [q3]; exact ws.fits
    exact Calm.step (nAdd_of (f1.compat f2)) (Calm.of (nAdd_of ((f1.bsh f2).compat f3)))
  | kron l r =>
    obtain ⟨⟨wl, wr⟩, kl, kr⟩ := wa
    have sq : ∀ {a : Mat K}, a.WF S → a.fit true → a.DetFine → 2 ≤ (den a).rank → (den a).rows = (den a).cols := by
      intro a w f h k
      induction a with
      | num t => exact Tensor.Invertible.square h
      | dense t => exact IsPosDef.square h
      | diag d => rfl
      | lt t => exact w.2.2.1
      | ut t => exact w.2.2.1
      | wb d l r m => exact (wb_posDef h0 w h.1.1 h.1.2.1 (posDom_den h0 w.wbLr.1.2.2 f.2.2 h.1.2.2.2.2)).square
      | kron l r i j =>
        show (kronT _ _).rows = (kronT _ _).cols
        rw [kronT_rows, kronT_cols, i w.1.1 f.2.1 h.1 w.2.1, j w.1.2 f.2.2 h.2 w.2.2]
      | _ => exact h.elim
    refine Calm.bind (assertSquare_calm wl kl (sq wl fa.2.1 da.1 kl)) fun _ _ => Calm.bind (assertSquare_calm wr kr (sq wr fa.2.2 da.2 kr)) fun _ _ => ?_
    refine Calm.step wl.shapeMatrix (Calm.step wr.shapeMatrix (Calm.bind (hLc wl fa.2.1 da.1) fun x hx => ?_))
    refine Calm.step (nMul_of (Compat.nil_left _)) (Calm.bind (hLc wr fa.2.2 da.2) fun y hy => Calm.step (nMul_of (Compat.nil_left _)) ?_)
    have q1 := (hLd wl da.1.ldDom hx).shape
    have q2 := (hLd wr da.2.ldDom hy).shape
    have f1 : Fits S x.sh := by rw [q1]; exact wl.fits
    have f2 : Fits S y.sh := by rw [q2]; exact wr.fits
    exact Calm.of (nAdd_of (by simpa using f1.compat f2))
  | _ => exact da.elim

/-- The diagonal of a Cholesky factor is positive. -/
theorem chol_pos (hl : lin.Lawful) {t : Tensor K} {x : Mat K} (h : (lstep env lin B L).chol (.dense t) = .ok x) : x.DetFine := by
  change stepChol lin B L (.dense t) = .ok x at h
  simp only [stepChol, bind_ok_iff, mkLT_ok] at h
  obtain ⟨_, _, u, hu, _, rfl⟩ := h
  obtain ⟨_, _, h3, _, hp, _⟩ := hl.chol hu
  intro β i hβ hi
  rw [bt_of_sh h3] at hβ
  rw [rows_of_sh h3] at hi
  exact hp β i hβ hi

/-! ### Square roots -/

/-- Matrices with a square root: positive semi-definite numeric, Dense, LowRank and Woodbury matrices; square Zero matrices; nonnegative Diagonal matrices; square Constant matrices
with a nonnegative value; Kronecker products of these. -/
def Mat.RootFine : Mat K → Prop
  | .num t => IsPsd t
  | .dense t => IsPsd t
  | .zero _ r c => r = c
  | .diag d => d.Nonneg
  | .const t r c => r = c ∧ 0 < c ∧ t.Nonneg
  | .lr l r m => IsPsd (den (.lr l r m))
  | .wb d l r m => IsPsd (den (.wb d l r m))
  | .kron l r => l.RootFine ∧ r.RootFine
  | _ => False

theorem Mat.RootFine.dom {a : Mat K} (h : a.RootFine) : a.RootDom := by
  induction a with
  | num => exact h
  | dense => exact h
  | lr => exact h
  | wb => exact h
  | kron l r i j => exact ⟨i h.1, j h.2⟩
  | _ => trivial

def RootCalm (S : Shp) (L : LOps K) : Prop := ∀ {a}, Mat.WF S a → a.fit true → a.RootFine → Calm (L.root a)
/-- `B.root` of a numeric matrix is in the supported classes. -/
def RootFit (L : LOps K) : Prop := ∀ {t}, Post (Mat.fit false) (L.root (.num t))

theorem stepRoot_fit (hK : B.Keeps) : RootFit (lstep env lin B L) := by
  intro t x h
  change rootNum lin B t = .ok x at h
  simp only [rootNum, bind_ok_iff] at h
  obtain ⟨_, _, us, _, q, _, h⟩ := h
  exact fitp_matmul3 hK (fit_num false _) (fit_num false _) (fit_num false _) x h

theorem rootNum_calm (hl : lin.Lawful) (hc : lin.Complete) (hB : B.Ok) (hF : B.Fine S) (hK : B.Keeps) {t : Tensor K} (wt : (Mat.num t).WF S) (hp : IsPsd t) :
    Calm (rootNum lin B t) := by
  unfold rootNum
  have h2 : 2 ≤ t.rank := hp.1.1
  have hs : t.rows = t.cols := hp.1.2.1
  refine Calm.bind (assertSquare_calm wt h2 hs) fun _ _ => Calm.bind (Calm.ex (hc.svd hp)) fun us hus => ?_
  obtain ⟨u, s⟩ := us
  obtain ⟨hsu, hss, w, hsw, hU, hW, hpos, hent⟩ := hl.svd hus hs h2
  refine Calm.bind (nSqrt_calm hc fun i hi => ?_) fun q hq => ?_
  · simp only at hi ⊢
    rw [hss, inRange_cons'] at hi
    have := hpos _ _ hi.2 hi.1
    have e : s.vat (itail i) (i 0) = s.get i := by
      show s.get _ = s.get _
      congr 1
      funext q
      rcases q with _ | q <;> rfl
    rwa [e] at this
  · obtain ⟨hsq, _⟩ := nSqrt_ok hl hq
    simp only at hsq
    have gu : Good S u := ⟨by rw [rank_of_sh hsu]; exact h2, by rw [bt_of_sh hsu]; exact wt.2⟩
    have gq : GoodV S q := ⟨by simp [Tensor.rank, hsq, hss], by rw [hsq, hss]; exact wt.2⟩
    have eq : q.cols = t.rows := by simp [Tensor.cols, hsq, hss]
    have wu : (Mat.num u).WF S := wf_num_of gu
    have wq : (Mat.num (diagC q)).WF S := wf_num_of (Rep.diagC (VRep.self gq.rank gq.fits)).good
    refine matmul3_calm hF hB hK wu wq wu trivial trivial trivial gu.rank (by simp [den, Tensor.rank]) gu.rank ?_ ?_
    · show u.cols = q.cols
      rw [cols_of_sh hsu, eq, hs]
    · show q.cols = u.cols
      rw [cols_of_sh hsu, eq, hs]

theorem stepRoot_calm (hl : lin.Lawful) (hc : lin.Complete) (hB : B.Ok) (hF : B.Fine S) (hK : B.Keeps) (hCc : CholCalm S L) (hR : RootC L) (hRf : RootFit L) (hRc : RootCalm S L) :
    RootCalm S (lstep env lin B L) := by
  intro a wa fa da
  show Calm (stepRoot lin B L a)
  have viaNum : ∀ t : Tensor K, Good S t → IsPsd t → Calm (do return mkDense (← B.dense (← L.root (.num t)))) := by
    intro t g hp
    refine Calm.bind (hRc (wf_num_of g) trivial hp) fun x hx => ?_
    have o := hR (wf_num_of g) hp hx
    exact Calm.bind (hF.dense o.wf (hRf _ hx).up) fun _ _ => Calm.pure
  cases a with
  | num t => exact rootNum_calm hl hc hB hF hK wa da
  | zero bt r c => exact Calm.bind (assertSquare_calm wa (wa.rank rfl) da) fun _ _ => Calm.pure
  | dense t => exact viaNum t ⟨wa.1, wa.2⟩ da
  | diag d => exact Calm.bind (assertSquare_calm wa (wa.rank rfl) rfl) fun _ _ => hCc wa fa da
  | const t r c => exact Calm.bind (assertSquare_calm wa (wa.rank rfl) da.1) fun _ _ => hCc wa fa da
  | lr l r m =>
    refine Calm.bind (hF.dense wa fa) fun u hu => ?_
    obtain rfl := hB.dense wa hu
    exact viaNum _ (wa.good (wa.rank rfl)) da
  | wb d l r m =>
    refine Calm.bind (hF.dense wa fa) fun u hu => ?_
    obtain rfl := hB.dense wa hu
    exact viaNum _ (wa.good (wa.rank rfl)) da
  | kron l r => exact Calm.bind (hRc wa.1.1 fa.2.1 da.1) fun _ _ => Calm.bind (hRc wa.1.2 fa.2.2 da.2) fun _ _ => Calm.pure
  | _ => exact da.elim

end

end Verif
