/-
Incompatible operands are rejected: the shape checks of the methods of add and multiply.
-/
import Verif.Props04

set_option linter.unusedSectionVars false

namespace Verif

variable {K : Type} [Field K] [LinearOrder K]

/-- A triangular matrix with a Constant: `multiply` does not compare their shapes (`ops/multiply.py` 139-143, 171-175). -/
def TriConst (a b : Mat K) : Prop :=
  ((∃ t, a = .lt t) ∨ ∃ t, a = .ut t) ∧ ∃ t r c, b = .const t r c

/-- Whatever is returned, the shapes could be broadcast. -/
structure Ops.Rej (B : Ops K) : Prop where
  add : ∀ {S a b r}, Mat.WF S a → Mat.WF S b → B.add a b = .ok r → Compat (den a).sh (den b).sh
  mul : ∀ {S a b r}, Mat.WF S a → Mat.WF S b → ¬ TriConst a b → ¬ TriConst b a → B.mul a b = .ok r → Compat (den a).sh (den b).sh

theorem compat_diag {S : Shp} {s t : Tensor K} (hs : (Mat.diag s).WF S) (ht : (Mat.diag t).WF S) (h : Compat s.sh t.sh) :
    Compat (den (.diag s)).sh (den (.diag t)).sh := by
  refine compat_of_mat (hs.good (hs.rank rfl)) (ht.good (ht.rank rfl)) ?_
  have h0 := h 0
  intro k
  rcases k with _ | _ | k
  · exact h0
  · exact h0
  · left; simp

theorem wb_lr {S : Shp} {d : Tensor K} {l r m : Mat K} (h : (Mat.wb d l r m).WF S) : (Mat.diag d).WF S ∧ (Mat.lr l r m).WF S ∧
    (den (.lr l r m)).rows = (den (.wb d l r m)).rows ∧ (den (.lr l r m)).cols = (den (.wb d l r m)).cols ∧
    (den (.diag d)).rows = (den (.wb d l r m)).rows ∧ (den (.diag d)).cols = (den (.wb d l r m)).cols := by
  obtain ⟨h1, h2, h3, h4, h5, h6⟩ := h
  refine ⟨h1, ⟨h2, h3, h4.1, h4.2⟩, ?_⟩
  have r1 : (den (.lr l r m)).rows = (den l).rows := by simp [den]
  have r2 : (den (.lr l r m)).cols = (den r).rows := by simp [den]
  simp only [den, zipB_rows, zipB_cols, mm_rows, mm_cols, tr_cols, diagC_rows, diagC_cols, h5, h6, bd_self, and_self]

/-- The same rows and columns are compatible with the same matrices. -/
theorem compat_dims {S : Shp} {a a' b : Tensor K} (ga : Good S a) (ga' : Good S a') (gb : Good S b) (h1 : a'.rows = a.rows) (h2 : a'.cols = a.cols)
    (h : Compat a'.sh b.sh) : Compat a.sh b.sh := by
  have := compat_mat ga' gb h
  rw [h1, h2] at this
  exact compat_of_mat ga gb this

theorem addRun_rej {env : Env K} {B : Ops K} (hB : B.Ok) (hR : B.Rej) {S : Shp} {m : AddM} {a b r : Mat K}
    (ha : a.WF S) (hb : b.WF S) (aa : a.isAM = true) (ab : b.isAM = true)
    (h : addRun env B m a b = .ok r) : Compat (den a).sh (den b).sh := by
  have ka := ha.rank aa
  have kb := hb.rank ab
  have ga := ha.good ka
  have gb := hb.good kb
  unfold addRun at h
  split at h
  · simp only [ha.shape, hb.shape, bind_ok_iff, Except.ok.injEq, exists_eq_left', assertCompatible_ok, exists_const] at h
    exact h.1
  · simp only [ha.shape, hb.shape, bind_ok_iff, Except.ok.injEq, exists_eq_left', assertCompatible_ok, exists_const] at h
    exact h.1
  · simp only [bind_ok_iff, nAdd_ok, pure_eq_ok] at h
    obtain ⟨_, h1, _, h2, _, ⟨hc, rfl⟩, rfl⟩ := h
    obtain rfl := hB.dense ha h1
    obtain rfl := hB.dense hb h2
    exact hc
  · simp only [bind_ok_iff, nAdd_ok, pure_eq_ok] at h
    obtain ⟨_, ⟨hc, rfl⟩, rfl⟩ := h
    exact hc
  · simp only [bind_ok_iff, nAdd_ok, mkDiag_ok] at h
    obtain ⟨_, ⟨hc, rfl⟩, _, rfl⟩ := h
    exact compat_diag ha hb hc
  · simp only [bind_ok_iff, nAdd_ok, assertCompatible_ok, bsE_ok, exists_const] at h
    exact h.1
  · simp only [shapeBroadcast, ha.shape, hb.shape, bind_ok_iff, Except.ok.injEq, exists_eq_left', bsE_ok, nAdd_ok, pure_eq_ok, nBroadcastTo_ok] at h
    obtain ⟨_, h1, _, ⟨_, rfl⟩, _, ⟨hc, rfl⟩, _, ⟨_, rfl⟩, rfl⟩ := h
    exact hc
  · simp only [ha.shape, hb.shape, bind_ok_iff, Except.ok.injEq, exists_eq_left', assertCompatible_ok, exists_const] at h
    exact h.1
  · exact (hR.add hb ha h).symm
  · simp only [bind_ok_iff, nAdd_ok, mkLT_ok] at h
    obtain ⟨_, ⟨hc, rfl⟩, _, rfl⟩ := h
    exact hc
  · simp only [bind_ok_iff, nAdd_ok, mkLT_ok] at h
    obtain ⟨_, h1, _, ⟨hc, rfl⟩, _, rfl⟩ := h
    obtain rfl := hB.dense hb h1
    exact hc
  · simp only [bind_ok_iff, nAdd_ok, mkUT_ok] at h
    obtain ⟨_, ⟨hc, rfl⟩, _, rfl⟩ := h
    exact hc
  · simp only [bind_ok_iff, nAdd_ok, pure_eq_ok] at h
    obtain ⟨_, ⟨hc, rfl⟩, rfl⟩ := h
    exact hc
  · simp only [bind_ok_iff, nAdd_ok, mkUT_ok] at h
    obtain ⟨_, h1, _, ⟨hc, rfl⟩, _, rfl⟩ := h
    obtain rfl := hB.dense hb h1
    exact hc
  · simp only [addLRLR, ha.shape, hb.shape, bind_ok_iff, Except.ok.injEq, assertCompatible_ok, exists_eq_left', exists_const] at h
    exact h.1
  · simp only [bind_ok_iff] at h
    obtain ⟨rc, hrc, lr, hlr, h⟩ := h
    obtain ⟨hcm, rfl⟩ := shapeMatrixBroadcast_ok ha hb hrc
    exact compat_of_mat ga gb hcm
  · simp only [mkWB, ha.shape, hb.shape, bind_ok_iff, Except.ok.injEq, exists_eq_left', assertCompatible_ok, exists_const] at h
    exact h.1.symm
  · simp only [mkWB, ha.shape, hb.shape, bind_ok_iff, Except.ok.injEq, exists_eq_left', assertCompatible_ok, exists_const] at h
    exact h.1
  · simp only [bind_ok_iff] at h
    obtain ⟨_, h1, _⟩ := h
    obtain ⟨wd, _, _, _, e1, e2⟩ := wb_lr ha
    obtain ⟨wd', _, _, _, e1', e2'⟩ := wb_lr hb
    have := hR.add wd wd' h1
    have gd := wd.good (wd.rank rfl)
    have gd' := wd'.good (wd'.rank rfl)
    exact compat_dims ga gd gb e1 e2 (compat_dims gb gd' gd e1' e2' this.symm).symm
  · simp only [bind_ok_iff] at h
    obtain ⟨_, h1, _⟩ := h
    obtain ⟨wd, _, _, _, e1, e2⟩ := wb_lr ha
    exact compat_dims ga (wd.good (wd.rank rfl)) gb e1 e2 (hR.add wd hb h1)
  · simp only [bind_ok_iff] at h
    obtain ⟨_, h1, _⟩ := h
    obtain ⟨_, wl, e1, e2, _, _⟩ := wb_lr ha
    exact compat_dims ga (wl.good (wl.rank rfl)) gb e1 e2 (hR.add wl hb h1)
  · simp at h

theorem mulRun_rej {B : Ops K} (hB : B.Ok) (hR : B.Rej) {S : Shp} {m : MulM} {a b r : Mat K}
    (ha : a.WF S) (hb : b.WF S) (aa : a.isAM = true) (ab : b.isAM = true) (hab : ¬ TriConst a b) (hba : ¬ TriConst b a)
    (h : mulRun B m a b = .ok r) : Compat (den a).sh (den b).sh := by
  have ka := ha.rank aa
  have kb := hb.rank ab
  have ga := ha.good ka
  have gb := hb.good kb
  unfold mulRun at h
  split at h
  · simp only [ha.shape, hb.shape, bind_ok_iff, Except.ok.injEq, exists_eq_left', assertCompatible_ok, exists_const] at h
    exact h.1
  · simp only [ha.shape, hb.shape, bind_ok_iff, Except.ok.injEq, exists_eq_left', assertCompatible_ok, exists_const] at h
    exact h.1
  · simp only [bind_ok_iff, nMul_ok, pure_eq_ok] at h
    obtain ⟨_, h1, _, h2, _, ⟨hc, rfl⟩, rfl⟩ := h
    obtain rfl := hB.dense ha h1
    obtain rfl := hB.dense hb h2
    exact hc
  · simp only [bind_ok_iff, nMul_ok, pure_eq_ok] at h
    obtain ⟨_, ⟨hc, rfl⟩, rfl⟩ := h
    exact hc
  · simp only [bind_ok_iff, nMul_ok, mkDiag_ok] at h
    obtain ⟨_, ⟨hc, rfl⟩, _, rfl⟩ := h
    exact compat_diag ha hb hc
  · simp only [mulDiagAm, ha.shape, hb.shape, bind_ok_iff, Except.ok.injEq, exists_eq_left', assertCompatible_ok, exists_const] at h
    exact h.1
  · exact (hR.mul hb ha hba hab h).symm
  · simp only [bind_ok_iff, nMul_ok, assertCompatible_ok, bsE_ok, exists_const] at h
    exact h.1
  · simp only [ha.shape, hb.shape, bind_ok_iff, Except.ok.injEq, exists_eq_left', assertCompatible_ok, exists_const] at h
    exact h.1
  · simp only [ha.shape, hb.shape, bind_ok_iff, Except.ok.injEq, exists_eq_left', assertCompatible_ok, exists_const] at h
    exact h.1
  · simp only [bind_ok_iff, nMul_ok, mkLT_ok] at h
    obtain ⟨_, ⟨hc, rfl⟩, _, rfl⟩ := h
    exact hc
  · simp only [bind_ok_iff, nMul_ok, mkLT_ok] at h
    obtain ⟨_, h1, _, ⟨hc, rfl⟩, _, rfl⟩ := h
    obtain rfl := hB.dense hb h1
    exact hc
  · exact absurd ⟨.inl ⟨_, rfl⟩, _, _, _, rfl⟩ hab
  · simp only [bind_ok_iff, nMul_ok, mkUT_ok] at h
    obtain ⟨_, ⟨hc, rfl⟩, _, rfl⟩ := h
    exact hc
  · rename_i s t
    simp only [bind_ok_iff, nMul_ok, mkDiag_ok] at h
    obtain ⟨_, h1, _, h2, _, ⟨hc, rfl⟩, _, rfl⟩ := h
    obtain rfl := hB.diag ha ka trivial h1
    obtain rfl := hB.diag hb kb trivial h2
    have h0 := hc 0
    have q1 : dim (diagE (den (.ut s))).sh 0 = s.rows := by simp [diagE, den, ha.2.2.1]
    have q2 : dim (diagE (den (.lt t))).sh 0 = t.rows := by simp [diagE, den, hb.2.2.1]
    rw [q1, q2] at h0
    refine compat_of_mat ga gb ?_
    have e1 : (den (.ut s)).cols = s.rows := ha.2.2.1.symm
    have e2 : (den (.lt t)).cols = t.rows := hb.2.2.1.symm
    rw [e1, e2]
    simp only [compat_cons]
    exact ⟨h0, h0, Compat.nil_left _⟩
  · simp only [bind_ok_iff, nMul_ok, mkUT_ok] at h
    obtain ⟨_, h1, _, ⟨hc, rfl⟩, _, rfl⟩ := h
    obtain rfl := hB.dense hb h1
    exact hc
  · exact absurd ⟨.inr ⟨_, rfl⟩, _, _, _, rfl⟩ hab
  · simp only [mulLRLR, ha.shape, hb.shape, bind_ok_iff, Except.ok.injEq, exists_eq_left', assertCompatible_ok, exists_const] at h
    exact h.1
  · simp only [ha.shape, hb.shape, bind_ok_iff, Except.ok.injEq, exists_eq_left', assertCompatible_ok, exists_const] at h
    exact h.1
  · simp only [bind_ok_iff] at h
    obtain ⟨_, _, _, h1, _⟩ := h
    obtain ⟨_, wl, e1, e2, _, _⟩ := wb_lr ha
    refine compat_dims ga (wl.good (wl.rank rfl)) gb e1 e2 (hR.mul wl hb ?_ ?_ h1)
    · rintro ⟨⟨_, h⟩ | ⟨_, h⟩, _⟩ <;> cases h
    · rintro ⟨_, _, _, _, h⟩; cases h
  · rename_i l r l' r'
    simp only [ha.1.1.shapeMatrix, ha.1.2.shapeMatrix, hb.1.1.shapeMatrix, hb.1.2.shapeMatrix, bind_ok_iff, Except.ok.injEq, exists_eq_left', guardE_ok, exists_const, Prod.mk.injEq] at h
    obtain ⟨⟨⟨h1, h2⟩, h3, h4⟩, _⟩ := h
    refine compat_of_mat ga gb ?_
    simp only [den, kronT_rows, kronT_cols, h1, h2, h3, h4]
    exact Compat.refl _
  · simp only [ha.shape, hb.shape, bind_ok_iff, Except.ok.injEq, exists_eq_left', assertCompatible_ok, exists_const] at h
    exact h.1
  · simp at h

theorem compat_convert {env : Env K} {S : Shp} {a b : Mat K} (ha : a.WF S) (hb : b.WF S)
    (h : Compat (den (convertAM env a)).sh (den (convertAM env b)).sh) : Compat (den a).sh (den b).sh := by
  obtain ⟨_, ea, _⟩ := den_convertAM (env := env) ha
  obtain ⟨_, eb, _⟩ := den_convertAM (env := env) hb
  rw [ea, eb] at h
  intro k
  have := h k
  rwa [(upT_props (WF.rank_ne_one ha)).2, (upT_props (WF.rank_ne_one hb)).2] at this

theorem triConst_convert {env : Env K} {S : Shp} {a b : Mat K} (ha : a.WF S) (hb : b.WF S) (h : ¬ TriConst a b) (h' : TriConst (convertAM env a) (convertAM env b)) :
    Compat (den a).sh (den b).sh := by
  obtain ⟨h1, t, r, c, h2⟩ := h'
  cases b with
  | num t =>
    by_cases h0 : t.rank = 0
    · rw [den, List.length_eq_zero_iff.1 h0]; exact Compat.nil_right _
    · simp [convertAM, h0, mkDense] at h2
  | const t' r' c' =>
    exfalso
    apply h
    refine ⟨?_, _, _, _, rfl⟩
    cases a with
    | num t =>
      simp only [convertAM] at h1
      split_ifs at h1 <;> simp [mkDense] at h1
    | _ => exact h1
  | _ => simp [convertAM] at h2

theorem ops_rej {env : Env K} (he : env.Lawful) (n : ℕ) : (ops env n).Rej := by
  induction n with
  | zero => exact ⟨fun _ _ h => by simp [ops, Ops.bot] at h, fun _ _ _ _ h => by simp [ops, Ops.bot] at h⟩
  | succ n ih =>
    have hB := ops_ok he n
    refine ⟨fun {S a b r} ha hb h => ?_, fun {S a b r} ha hb hab hba h => ?_⟩
    · change stepAdd env (ops env n) a b = .ok r at h
      unfold stepAdd at h
      split at h
      · simp only [bind_ok_iff, nAdd_ok, pure_eq_ok] at h
        obtain ⟨_, ⟨hc, rfl⟩, rfl⟩ := h
        exact hc
      · obtain ⟨wa, ea, aa, _, _⟩ := den_convertAM (env := env) ha
        obtain ⟨wb, eb, ab, _, _⟩ := den_convertAM (env := env) hb
        obtain ⟨ka, hka⟩ := kind_of_isAM aa
        obtain ⟨kb, hkb⟩ := kind_of_isAM ab
        simp only [hka, hkb] at h
        exact compat_convert ha hb (addRun_rej hB ih wa wb aa ab h)
    · change stepMul env (ops env n) a b = .ok r at h
      unfold stepMul at h
      split at h
      · simp only [bind_ok_iff, nMul_ok, pure_eq_ok] at h
        obtain ⟨_, ⟨hc, rfl⟩, rfl⟩ := h
        exact hc
      · obtain ⟨wa, ea, aa, _, _⟩ := den_convertAM (env := env) ha
        obtain ⟨wb, eb, ab, _, _⟩ := den_convertAM (env := env) hb
        obtain ⟨ka, hka⟩ := kind_of_isAM aa
        obtain ⟨kb, hkb⟩ := kind_of_isAM ab
        simp only [hka, hkb] at h
        by_cases q1 : TriConst (convertAM env a) (convertAM env b)
        · exact triConst_convert ha hb hab q1
        by_cases q2 : TriConst (convertAM env b) (convertAM env a)
        · exact (triConst_convert hb ha hba q2).symm
        exact compat_convert ha hb (mulRun_rej hB ih wa wb aa ab q1 q2 h)

/-! ### C40 -/

instance (a b : Mat K) : Decidable (BatchCompat a b) := inferInstanceAs (Decidable (Compat _ _))

/-- A strict run that raises (other than by running out of depth or by an inexact test) is exact. -/
theorem Exact.of_error {α : Type} {c : Cfg K} {f : Ops K → E α} {e : Err} (hf : Calls f) {n : ℕ} (h : f (ops c.strict n) = .error e) (h1 : e ≠ .fuel) (h2 : e ≠ .inexact) :
    Exact c f := by
  intro m
  rcases hf _ _ _ (ops_below_env (strict_below c.isNumber c.tol) m) with h3 | ⟨_, rfl, hm⟩
  · exact h3
  · exfalso
    rcases hf _ _ _ (ops_below_le (e := c.strict) (Nat.le_max_left n m)) with h3 | ⟨_, rfl, h3⟩
    · rcases hf _ _ _ (ops_below_le (e := c.strict) (Nat.le_max_right n m)) with h4 | ⟨_, rfl, h4⟩
      · have := (h3.trans h4.symm).trans hm
        rw [h] at this
        cases this
        exact h2 rfl
      · have := h4.symm.trans hm
        cases this
    · rw [h] at h3
      cases h3
      exact h1 rfl

/-- Does the run raise a Python exception? -/
def Ex.isRaise {α : Type} : E α → Bool
  | .ok _ => false
  | .error e => decide (e ≠ .fuel ∧ e ≠ .inexact)

theorem Ex.exact_raise {α : Type} {f : Ops ℚ → E α} (hf : Calls f) {n : ℕ} (h : Ex.isRaise (f (ops Ex.cfg.strict n)) = true) : Exact Ex.cfg f := by
  cases e : f (ops Ex.cfg.strict n) with
  | ok r => rw [e] at h; simp [Ex.isRaise] at h
  | error x =>
    rw [e] at h
    simp only [Ex.isRaise, decide_eq_true_eq] at h
    exact Exact.of_error hf e h.1 h.2

/-- A call that finishes and does not return raises. -/
theorem Finishes.raises {α : Type} {c : Cfg K} {f : Ops K → E α} (h : Finishes c f) (h' : ∀ r, ¬ Returns c f r) : ∃ e, Raises c f e :=
  h.resolve_left fun ⟨r, hr⟩ => h' r hr

/-- C40.  Adding matrices whose shapes cannot be broadcast raises. -/
theorem C40_add (c : Cfg K) {a b : Mat K} (ha : a.Valid) (hb : b.Valid) (hc : BatchCompat a b) (hn : ¬ Compat (den a).sh (den b).sh)
    (hx : Exact c fun B => B.add a b) : ∃ e, Raises c (fun B => B.add a b) e := by
  refine (C35_add c a b).raises fun r hr => hn ?_
  obtain ⟨n, h⟩ := hr.strict hx
  obtain ⟨wa, wb⟩ := ha.common hb hc
  exact (ops_rej (strictEnv_lawful _ _) n).add wa wb h

/-- C40.  Multiplying matrices whose shapes cannot be broadcast raises, except that a triangular matrix and a Constant are not compared. -/
theorem C40_multiply (c : Cfg K) {a b : Mat K} (ha : a.Valid) (hb : b.Valid) (hc : BatchCompat a b) (hn : ¬ Compat (den a).sh (den b).sh)
    (ht : ¬ TriConst a b) (ht' : ¬ TriConst b a) (hx : Exact c fun B => B.mul a b) : ∃ e, Raises c (fun B => B.mul a b) e := by
  refine (C35_multiply c a b).raises fun r hr => hn ?_
  obtain ⟨n, h⟩ := hr.strict hx
  obtain ⟨wa, wb⟩ := ha.common hb hc
  exact (ops_rej (strictEnv_lawful _ _) n).mul wa wb ht ht' h

/-- The exception is real: `LowerTriangular (2 × 2) * Constant (3 × 3)` returns. -/
theorem C40_triangular_constant_unchecked :
    ∃ a b r : Mat ℚ, a.Valid ∧ b.Valid ∧ BatchCompat a b ∧ ¬ Compat (den a).sh (den b).sh ∧ Returns Ex.cfg (fun B => B.mul a b) r := by
  obtain ⟨r, hr, _⟩ := Ex.meets (Calls.mul Ex.L (.const (scalarT 3) 3 3)) (n := 3) (by decide +kernel)
  exact ⟨Ex.L, .const (scalarT 3) 3 3, r, ⟨[], Ex.L_wf _⟩, ⟨[], Fits.nil _⟩, by decide, by decide, hr⟩

/-- C40.  Multiplying matrices whose inner dimensions differ raises. -/
theorem C40_matmul (c : Cfg K) {ta tb : Bool} {a b : Mat K} (ha : a.Valid) (hb : b.Valid) (hc : BatchCompat a b)
    (h2a : 2 ≤ (den a).rank) (h2b : 2 ≤ (den b).rank)
    (hn : (if ta then (den a).rows else (den a).cols) ≠ (if tb then (den b).cols else (den b).rows))
    (hx : Exact c fun B => B.matmul ta tb a b) : ∃ e, Raises c (fun B => B.matmul ta tb a b) e := by
  refine (C35_matmul c ta tb a b).raises fun r hr => hn ?_
  have := (C03_matmul c ha hb hc h2a h2b hr hx).2.inner
  cases ta <;> cases tb <;> simpa using this

example : Ex.W.Valid ∧ Ex.Kr.Valid ∧ BatchCompat Ex.W Ex.Kr ∧ ¬ Compat (den Ex.W).sh (den Ex.Kr).sh ∧ ¬ TriConst Ex.W Ex.Kr ∧ ¬ TriConst Ex.Kr Ex.W :=
  ⟨⟨[], Ex.W_wf _⟩, ⟨[], Ex.Kr_wf _⟩, by decide, by decide, (by rintro ⟨⟨_, h⟩ | ⟨_, h⟩, _⟩ <;> cases h), (by rintro ⟨⟨_, h⟩ | ⟨_, h⟩, _⟩ <;> cases h)⟩
example : Exact Ex.cfg (fun B => B.add Ex.W Ex.Kr) ∧ Exact Ex.cfg (fun B => B.mul Ex.W Ex.Kr) ∧ Exact Ex.cfg (fun B => B.matmul false false Ex.W Ex.Kr) :=
  ⟨Ex.exact_raise (Calls.add _ _) (n := 6) (by decide +kernel), Ex.exact_raise (Calls.mul _ _) (n := 6) (by decide +kernel),
    Ex.exact_raise (Calls.matmul _ _ _ _) (n := 6) (by decide +kernel)⟩

end Verif
