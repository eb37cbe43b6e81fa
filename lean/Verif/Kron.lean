/-
C18.  `B.kron`.
-/
import Verif.Props02

set_option linter.unusedSectionVars false

namespace Verif

variable {K : Type} [Field K] [LinearOrder K]

/-- `_product_shape(a, b)` with the batch shape, `ops/kron.py` 11-17, 20-30: the shape of the Zero matrix. -/
def kronZero (a b : Mat K) : E (Mat K) := do
  let bt ← shapeBatchBroadcast a b
  let sa ← shapeMatrix a
  let sb ← shapeMatrix b
  mkZero (sa.2 * sb.2 :: sa.1 * sb.1 :: bt)

/-- `B.kron(a, b)`, `ops/kron.py` 20-43.  Operands are promoted to matrices; the Kronecker product of two numeric operands is in the backend
(LAB's `B.kron` of tensors of rank at least 2, whose batches broadcast). -/
def kronM (env : Env K) (a b : Mat K) : E (Mat K) :=
  match a, b with
  | .num s, .num t => do
    guardE (2 ≤ s.rank ∧ 2 ≤ t.rank ∧ Compat s.bt t.bt) .value
    return .num (kronT s t)
  | a, b =>
    let a := convertAM env a
    match convertAM env b with
    | .zero bt r c => kronZero a (.zero bt r c)  -- 20-22
    | b =>
      match a with
      | .zero bt r c => kronZero b (.zero bt r c)  -- 25-27
      | .const s r c =>
        match b with
        | .const t r' c' => do mkConst (← nMul s t) [c * c', r * r']  -- 41-43
        | b => .ok (.kron (.const s r c) b)
      | a => .ok (.kron a b)  -- 33-35

theorem kronZero_ok {S : Shp} {a r : Mat K} {bt : Shp} {m n : ℕ} (ha : a.WF S) (hb : Mat.WF S (.zero bt m n : Mat K)) (h2 : 2 ≤ (den a).rank)
    (h : kronZero a (.zero bt m n) = .ok r) : r.WF S ∧ den r = kronT (den a) (den (.zero bt m n)) ∧ den r = kronT (den (.zero bt m n)) (den a) := by
  simp only [kronZero, shapeBatchBroadcast, ha.shapeBatch, hb.shapeBatch, ha.shapeMatrix, hb.shapeMatrix, bind_ok_iff, Except.ok.injEq, exists_eq_left',
    bsE_ok, mkZero] at h
  obtain ⟨T, ⟨hc, rfl⟩, rfl⟩ := h
  have ga := ha.good h2
  have gb := hb.good (hb.rank rfl)
  have f1 := hc.fits_left
  have f2 := hc.fits_right
  have A := Rep.self h2 f1
  have C : Rep (bsh (den a).bt (den (.zero bt m n : Mat K)).bt) m n (den (.zero bt m n : Mat K)) fun _ _ _ => 0 := Rep.fill f2 m n 0
  refine ⟨ga.fits.bsh gb.fits, ?_, ?_⟩
  · refine Rep.ext (Rep.fill (Fits.refl _) _ _ 0) (A.kronT C) rfl ?_
    intro β i j _ _ _; simp
  · refine Rep.ext (Rep.fill (Fits.refl _) _ _ 0) ?_ ?_ ?_ (g := fun β i j => 0 * (den a).at' β (i % (den a).rows) (j % (den a).cols))
    · have := C.kronT A
      rw [Nat.mul_comm m, Nat.mul_comm n] at this
      exact this
    · exact bsh_comm _ _
    · intro β i j _ _ _; simp

theorem kronM_ok {env : Env K} {S : Shp} {a b r : Mat K} (ha : a.WF S) (hb : b.WF S) (h : kronM env a b = .ok r) :
    r.WF S ∧ den r = kronT (upT (den a)) (upT (den b)) := by
  unfold kronM at h
  split at h
  · rename_i s t
    simp only [bind_ok_iff, guardE_ok, pure_eq_ok] at h
    obtain ⟨_, ⟨h1, h2, hc⟩, rfl⟩ := h
    have ga : Good S s := ⟨h1, ha.2⟩
    have gb : Good S t := ⟨h2, hb.2⟩
    rw [den, den, den, upT_of_rank h1, upT_of_rank h2]
    exact ⟨⟨by simp [Tensor.rank], (ga.kronT gb).fits⟩, rfl⟩
  · obtain ⟨wa, ea, aa, -, -⟩ := den_convertAM (env := env) ha
    obtain ⟨wb, eb, ab, -, -⟩ := den_convertAM (env := env) hb
    rw [← ea, ← eb]
    dsimp only at h
    generalize convertAM env a = a at *
    generalize convertAM env b = b at *
    split at h
    · obtain ⟨w, e, _⟩ := kronZero_ok wa wb (wa.rank aa) h
      exact ⟨w, e⟩
    · split at h
      · obtain ⟨w, _, e⟩ := kronZero_ok wb wa (wb.rank ab) h
        exact ⟨w, e⟩
      · split at h
        · rename_i s r c _ t r' c' _
          simp only [bind_ok_iff, nMul_ok] at h
          obtain ⟨u, ⟨hc, rfl⟩, h⟩ := h
          obtain ⟨-, rfl⟩ := mkConst_ok h
          have e : bsh (zipB (· * ·) s t).sh [] = (zipB (· * ·) s t).sh := by simp
          rw [e, bcast_self]
          have f1 : Fits S s.sh := wa
          have f2 : Fits S t.sh := wb
          refine ⟨f1.bsh f2, ?_⟩
          refine Rep.ext (Rep.constM (Fits.refl _) _ _) ((Rep.constM hc.fits_left r c).kronT (Rep.constM hc.fits_right r' c')) rfl ?_
          intro β i j hβ _ _
          exact zipB_get _ hβ hc.fits_left hc.fits_right
        · simp only [Except.ok.injEq] at h
          subst h
          exact ⟨⟨⟨wa, wb⟩, wa.rank aa, wb.rank ab⟩, rfl⟩
      · simp only [Except.ok.injEq] at h
        subst h
        exact ⟨⟨⟨wa, wb⟩, wa.rank aa, wb.rank ab⟩, rfl⟩

/-- C18.  `B.kron(a, b)` is the Kronecker product; a number counts as a `1 × 1` matrix. -/
theorem C18_kron (c : Cfg K) {a b r : Mat K} (ha : a.Valid) (hb : b.Valid) (hc : BatchCompat a b) (h : kronM c.code a b = .ok r) :
    r.Valid ∧ IsKron (upT (den a)) (upT (den b)) (den r) := by
  obtain ⟨wa, wb⟩ := ha.common hb hc
  obtain ⟨w, e⟩ := kronM_ok wa wb h
  refine ⟨⟨_, w⟩, ?_⟩
  obtain ⟨wa', ea, aa, _, _⟩ := den_convertAM (env := c.code) wa
  obtain ⟨wb', eb, ab, _, _⟩ := den_convertAM (env := c.code) wb
  rw [← ea, ← eb] at e ⊢
  exact IsKron.of_eq (wa'.good (wa'.rank aa)) (wb'.good (wb'.rank ab)) e

/-- C18.  `B.kron` of matrices whose batch shapes broadcast always returns. -/
theorem C18_kron_succeeds (c : Cfg K) {a b : Mat K} (ha : a.Valid) (hb : b.Valid) (hc : BatchCompat a b) (h2 : 2 ≤ (den a).rank) (h2' : 2 ≤ (den b).rank) :
    ∃ r, kronM c.code a b = .ok r := by
  obtain ⟨wa, wb⟩ := ha.common hb hc
  have hz : ∀ {S : Shp} {a : Mat K} {bt m n}, a.WF S → Compat (den a).bt bt → ∃ r, kronZero a (.zero bt m n) = .ok r := by
    intro S a bt m n w hc
    have w0 : Mat.WF bt (.zero bt m n : Mat K) := Fits.refl _
    have hc' : Compat (den a).bt (den (.zero bt m n : Mat K)).bt := hc
    have e : bsE (den a).bt (den (.zero bt m n : Mat K)).bt = .ok _ := bsE_ok.2 ⟨hc', rfl⟩
    simp only [kronZero, shapeBatchBroadcast, w.shapeBatch, w0.shapeBatch, w.shapeMatrix, w0.shapeMatrix, bind_ok_iff, Except.ok.injEq, exists_eq_left', e, mkZero]
    exact ⟨_, rfl⟩
  unfold kronM
  split
  · rename_i s t
    exact ⟨.num (kronT s t), by simp only [bind_ok_iff, guardE_ok, pure_eq_ok]; exact ⟨(), ⟨h2, h2', hc⟩, trivial⟩⟩
  · obtain ⟨wa, ea, aa, -, -⟩ := den_convertAM (env := c.code) wa
    obtain ⟨wb, eb, ab, -, -⟩ := den_convertAM (env := c.code) wb
    have hc' : Compat (den (convertAM c.code a)).bt (den (convertAM c.code b)).bt := by
      rw [ea, eb, upT_of_rank h2, upT_of_rank h2']; exact hc
    dsimp only
    generalize convertAM c.code a = a at *
    generalize convertAM c.code b = b at *
    split
    · exact hz wa hc'
    · split
      · exact hz wb hc'.symm
      · split
        · rename_i s r c _ t r' c' _
          exact ⟨.const (zipB (· * ·) s t) (r * r') (c * c'), by
            simp only [bind_ok_iff, nMul_ok]
            exact ⟨_, ⟨hc', rfl⟩, rfl⟩⟩
        · exact ⟨_, rfl⟩
      · exact ⟨_, rfl⟩

/-- The hypotheses are met by a Woodbury and a batch of Dense matrices. -/
example : Ex.W.Valid ∧ Ex.Mb.Valid ∧ BatchCompat Ex.W Ex.Mb ∧ ∃ r, kronM Ex.cfg.code Ex.W Ex.Mb = .ok r :=
  ⟨⟨[2], Ex.W_wf _⟩, ⟨_, Ex.Mb_wf⟩, (Ex.W_wf [2]).batchCompat Ex.Mb_wf, Ex.exists_of_isOk (by decide +kernel)⟩

end Verif
