/-
Row-major indices, reshaping of matrices, and Kronecker products applied to matrices by reshaping.
-/
import Verif.OpsOk

set_option linter.unusedSectionVars false
set_option linter.unusedVariables false

namespace Verif

variable {K : Type}

/-! ### Row-major indices -/

/-- Going to the linear index and back is the identity on indices in range. -/
theorem unlin_lin {s : Shp} {i : Idx} (h : InRange s i) : ∀ k, k < s.length → unlin s (lin s i) k = i k := by
  induction s generalizing i with
  | nil => intro k hk; simp at hk
  | cons d s ih =>
    rw [inRange_cons'] at h
    intro k hk
    have hd : 0 < d := by have := h.1; omega
    have e1 : (i 0 + d * lin s (itail i)) % d = i 0 := by rw [Nat.add_mul_mod_self_left, Nat.mod_eq_of_lt h.1]
    have e2 : (i 0 + d * lin s (itail i)) / d = lin s (itail i) := by
      rw [Nat.add_mul_div_left _ _ hd, Nat.div_eq_of_lt h.1, Nat.zero_add]
    simp only [unlin, lin, e1, e2]
    rcases k with _ | k
    · rfl
    · exact ih h.2 k (by simpa using hk)

theorem lin_lt {s : Shp} {i : Idx} (h : InRange s i) : lin s i < size s := by
  induction s generalizing i with
  | nil => simp [lin, size]
  | cons d s ih =>
    rw [inRange_cons'] at h
    have h2 := ih h.2
    have h1 := h.1
    simp only [lin, size, List.prod_cons] at *
    calc i 0 + d * lin s (itail i) < d + d * lin s (itail i) := by omega
      _ = d * (lin s (itail i) + 1) := by ring
      _ ≤ d * s.prod := Nat.mul_le_mul_left _ h2

theorem inRange_unlin {s : Shp} {n : ℕ} (h : n < size s) : InRange s (unlin s n) := by
  induction s generalizing n with
  | nil => intro k; simp [unlin]
  | cons d s ih =>
    simp only [size, List.prod_cons] at h
    have hd : 0 < d := by
      rcases Nat.eq_zero_or_pos d with h0 | h0
      · simp [h0] at h
      · exact h0
    rw [inRange_cons']
    refine ⟨Nat.mod_lt _ hd, ?_⟩
    have : itail (unlin (d :: s) n) = unlin s (n / d) := rfl
    rw [this]
    exact ih (Nat.div_lt_of_lt_mul h)

theorem lin_unlin {s : Shp} {n : ℕ} (h : n < size s) : lin s (unlin s n) = n := by
  induction s generalizing n with
  | nil => simp only [size, List.prod_nil] at h; simp [lin]; omega
  | cons d s ih =>
    simp only [size, List.prod_cons] at h
    have : itail (unlin (d :: s) n) = unlin s (n / d) := rfl
    simp only [lin, this]
    rw [ih (Nat.div_lt_of_lt_mul h)]
    simp only [unlin, icons_zero]
    exact Nat.mod_add_div n d

section
variable [Zero K]

theorem get_unlin_lin (t : Tensor K) {i : Idx} (h : InRange t.sh i) : t.get (unlin t.sh (lin t.sh i)) = t.get i := by
  apply t.get_congr
  intro k
  by_cases hk : k < t.sh.length
  · simp only [clip, unlin_lin h k hk]
  · have : dim t.sh k = 1 := by simp [dim, List.getD, List.getElem?_eq_none (Nat.not_lt.1 hk)]
    simp only [clip, this]
    split_ifs <;> omega

theorem lin_mat (R C : ℕ) (bt : Shp) (β : Idx) (i j : ℕ) : lin (C :: R :: bt) (icons j (icons i β)) = (i * C + j) + C * R * lin bt β := by
  simp only [lin, icons_zero]
  have : itail (itail (icons j (icons i β))) = β := rfl
  have h2 : itail (icons j (icons i β)) 0 = i := rfl
  rw [this, h2]; ring

theorem unlin_mat {R C : ℕ} (bt : Shp) (n L : ℕ) (h : n < R * C) :
    unlin (C :: R :: bt) (n + C * R * L) = icons (n % C) (icons (n / C) (unlin bt L)) := by
  have hC : 0 < C := by
    rcases Nat.eq_zero_or_pos C with h0 | h0
    · simp [h0] at h
    · exact h0
  have hR : 0 < R := by
    rcases Nat.eq_zero_or_pos R with h0 | h0
    · simp [h0] at h
    · exact h0
  have hd : n / C < R := Nat.div_lt_of_lt_mul (by rw [Nat.mul_comm]; exact h)
  have e1 : (n + C * R * L) % C = n % C := by rw [Nat.mul_assoc, Nat.add_mul_mod_self_left]
  have e2 : (n + C * R * L) / C = n / C + R * L := by rw [Nat.mul_assoc, Nat.add_mul_div_left _ _ hC]
  have e3 : (n / C + R * L) % R = n / C := by rw [Nat.add_mul_mod_self_left, Nat.mod_eq_of_lt hd]
  have e4 : (n / C + R * L) / R = L := by rw [Nat.add_mul_div_left _ _ hR, Nat.div_eq_of_lt hd, Nat.zero_add]
  simp only [unlin, e1, e2, e3, e4]

/-- Entries of a reshaped batch of matrices. -/
theorem Rep.reshape {S : Shp} {R C R' C' : ℕ} {t : Tensor K} {f : Idx → ℕ → ℕ → K} (h : Rep S R C t f) (e : R' * C' = R * C) :
    Rep S R' C' (reshapeT (C' :: R' :: t.bt) t) fun β i j => f β ((i * C' + j) / C) ((i * C' + j) % C) := by
  refine ⟨by simp [reshapeT, ofFn, Tensor.rank], rfl, rfl, h.bt, ?_⟩
  intro β i j hβ hi hj
  have hn : i * C' + j < R * C := by
    rw [← e]
    calc i * C' + j < i * C' + C' := by omega
      _ = (i + 1) * C' := by ring
      _ ≤ R' * C' := Nat.mul_le_mul_right _ hi
  have hC : 0 < C := by
    rcases Nat.eq_zero_or_pos C with h0 | h0
    · simp [h0] at hn
    · exact h0
  have h1 : (i * C' + j) / C < R := Nat.div_lt_of_lt_mul (by rw [Nat.mul_comm C R]; exact hn)
  rw [← h.at' β _ _ hβ h1 (Nat.mod_lt _ hC)]
  show (reshapeT (C' :: R' :: t.bt) t).get (icons j (icons i β)) = _
  unfold reshapeT
  rw [ofFn_get_fits (S := C' :: R' :: S) _ (by simp [*]) (by simp [h.bt]), clip_cons_of_lt hj, clip_cons_of_lt hi]
  have hb : InRange t.bt (clip t.bt β) := inRange_clip _ (h.bt.pos hβ.pos)
  rw [lin_mat]
  have esh := h.sh
  rw [esh, show C' * R' = C * R by rw [Nat.mul_comm C', e, Nat.mul_comm], unlin_mat _ _ _ hn]
  unfold Tensor.at'
  apply t.get_congr
  intro k
  rcases k with _ | _ | k
  · rfl
  · rfl
  · show (if unlin t.bt (lin t.bt (clip t.bt β)) k < dim t.sh (k+2) then unlin t.bt (lin t.bt (clip t.bt β)) k else 0) =
      (if β k < dim t.sh (k+2) then β k else 0)
    have hd : dim t.sh (k+2) = dim t.bt k := by rw [esh]; rfl
    rw [hd]
    by_cases hk : k < t.bt.length
    · have e2 := unlin_lin hb k hk
      have := hb k
      rw [e2, if_pos this]
      rfl
    · have : dim t.bt k = 1 := by simp [dim, List.getD, List.getElem?_eq_none (Nat.not_lt.1 hk)]
      rw [this]
      have : ∀ x : ℕ, (if x < 1 then x else 0) = 0 := by intro x; split_ifs <;> omega
      rw [this, this]

theorem reshapeT_bt (R C : ℕ) (bt : Shp) (t : Tensor K) : (reshapeT (C :: R :: bt) t).bt = bt := rfl

end

variable [Field K] [LinearOrder K]

theorem nReshape_ok {s : Shp} {t r : Tensor K} (h : nReshape s t = .ok r) : r = reshapeT s t := by
  unfold nReshape at h; split_ifs at h; simp at h; exact h.symm

theorem inferDim_ok {n d x : ℕ} (h : inferDim n d = .ok x) : 0 < d ∧ d * x = n := by
  unfold inferDim at h
  split_ifs at h with hd
  simp at h
  exact ⟨Nat.pos_of_ne_zero hd.1, by rw [← h, Nat.mul_div_cancel' hd.2]⟩

theorem reshapeRows_some {r : ℕ} {t u : Tensor K} (h : reshapeRows (some r) none t = .ok u) :
    0 < r ∧ ∃ c, r * c = t.rows * t.cols ∧ u = reshapeT (c :: r :: t.bt) t := by
  simp only [reshapeRows, reshapeMat, bind_ok_iff] at h
  obtain ⟨c, hc, h⟩ := h
  obtain ⟨h1, h2⟩ := inferDim_ok hc
  exact ⟨h1, c, h2, nReshape_ok h⟩

theorem reshapeRows_none {c : ℕ} {t u : Tensor K} (h : reshapeRows none (some c) t = .ok u) :
    0 < c ∧ ∃ r, r * c = t.rows * t.cols ∧ u = reshapeT (c :: r :: t.bt) t := by
  simp only [reshapeRows, reshapeMat, bind_ok_iff] at h
  obtain ⟨r, hr, h⟩ := h
  obtain ⟨h1, h2⟩ := inferDim_ok hr
  exact ⟨h1, r, by rw [Nat.mul_comm]; exact h2, nReshape_ok h⟩

theorem reshapeCols_some {r : ℕ} {t u : Tensor K} (ht : 2 ≤ t.rank) (h : reshapeCols (some r) none t = .ok u) :
    0 < r ∧ ∃ c, c * r = t.cols * t.rows ∧ u = tr (reshapeT (r :: c :: t.bt) (tr t)) := by
  simp only [reshapeCols, bind_ok_iff, pure_eq_ok] at h
  obtain ⟨x, hx, rfl⟩ := h
  rw [nTranspose_of_rank ht] at hx
  obtain ⟨h1, c, h2, rfl⟩ := reshapeRows_none hx
  refine ⟨h1, c, h2, ?_⟩
  rw [nTranspose_of_rank (by simp [reshapeT, Tensor.rank])]
  rfl

theorem reshapeCols_none {c : ℕ} {t u : Tensor K} (ht : 2 ≤ t.rank) (h : reshapeCols none (some c) t = .ok u) :
    0 < c ∧ ∃ r, c * r = t.cols * t.rows ∧ u = tr (reshapeT (r :: c :: t.bt) (tr t)) := by
  simp only [reshapeCols, bind_ok_iff, pure_eq_ok] at h
  obtain ⟨x, hx, rfl⟩ := h
  rw [nTranspose_of_rank ht] at hx
  obtain ⟨h1, r, h2, rfl⟩ := reshapeRows_some hx
  refine ⟨h1, r, h2, ?_⟩
  rw [nTranspose_of_rank (by simp [reshapeT, Tensor.rank])]
  rfl

/-! ### Kronecker factors applied by reshaping -/

theorem div_mod_aux {x m j : ℕ} (hj : j < m) : (x * m + j) / m = x ∧ (x * m + j) % m = j := by
  have hm : 0 < m := by omega
  constructor
  · rw [Nat.add_comm, Nat.add_mul_div_right _ _ hm, Nat.div_eq_of_lt hj, Nat.zero_add]
  · rw [Nat.add_comm, Nat.add_mul_mod_self_right, Nat.mod_eq_of_lt hj]

/-- `(A ⊗ I) B` by reshaping the rows. -/
theorem kronAIdB_ok {B : Ops K} (hB : B.Ok) {S : Shp} {a : Mat K} {b z : Tensor K} {n : ℕ} (ha : a.WF S) (ka : 2 ≤ (den a).rank)
    (gb : Good S b) (hn : b.rows = (den a).cols * n) (h : kronAIdB B a b = .ok z) :
    z.bt = bsh (den a).bt b.bt ∧ ∀ T, Fits T (den a).bt → Fits T b.bt → Rep T ((den a).rows * n) b.cols z
      fun β i j => ∑ k ∈ Finset.range (den a).cols, (den a).at' β (i / n) k * b.at' β (k * n + i % n) j := by
  simp only [kronAIdB, ha.shape, bind_ok_iff, Except.ok.injEq, exists_eq_left'] at h
  obtain ⟨x, hx, y, hy, yt, hyt, hz⟩ := h
  obtain ⟨hq, c, hc, rfl⟩ := reshapeRows_some hx
  have hdim : dim (den a).sh 0 = (den a).cols := rfl
  rw [hdim] at hx hq hc hy
  have hc' : c = n * b.cols := by
    rw [hn, Nat.mul_assoc] at hc
    exact Nat.eq_of_mul_eq_mul_left hq hc
  subst hc'
  have X : ∀ T, Fits T b.bt → Rep T (den a).cols (n * b.cols) (reshapeT (n * b.cols :: (den a).cols :: b.bt) b) _ :=
    fun T hT => (Rep.self gb.rank hT).reshape hc
  have wx : Mat.WF S (.num (reshapeT (n * b.cols :: (den a).cols :: b.bt) b)) := ⟨by have := (X S gb.fits).rank; omega, (X S gb.fits).bt⟩
  have m := hB.matmul ha wx ka (X S gb.fits).rank hy
  obtain rfl := hB.dense m.wf hyt
  have ey := m.eq
  simp only [trIf, Bool.false_eq_true, if_false, den] at ey
  have Y : ∀ T, Fits T (den a).bt → Fits T b.bt → Rep T (den a).rows (n * b.cols) (den y) _ := fun T h1 h2 =>
    ey ▸ (Rep.self ka h1).mm (X T h2)
  obtain ⟨hm, r, hr, rfl⟩ := reshapeRows_none hz
  have YS := Y S ha.fits gb.fits
  have hr' : r = (den a).rows * n := by
    rw [YS.rows, YS.cols, ← Nat.mul_assoc] at hr
    exact Nat.eq_of_mul_eq_mul_right hm hr
  subst hr'
  refine ⟨by rw [reshapeT_bt, ey, mm_bt, reshapeT_bt], fun T h1 h2 => ?_⟩
  refine ((Y T h1 h2).reshape (R' := (den a).rows * n) (C' := b.cols) (by rw [Nat.mul_assoc])).congr ?_
  intro β i j hβ hi hj
  have hn0 : 0 < n := by
    rcases Nat.eq_zero_or_pos n with h0 | h0
    · subst h0; simp at hi
    · exact h0
  have e1 : (i * b.cols + j) / (n * b.cols) = i / n := by
    rw [Nat.mul_comm n, ← Nat.div_div_eq_div_mul, (div_mod_aux hj).1]
  have e2 : (i * b.cols + j) % (n * b.cols) = i % n * b.cols + j := by
    rw [Nat.mul_comm n, Nat.mod_mul, (div_mod_aux hj).1, (div_mod_aux hj).2]; ring
  rw [e1, e2]
  refine Finset.sum_congr rfl fun k _ => ?_
  have e3 : k * (n * b.cols) + (i % n * b.cols + j) = (k * n + i % n) * b.cols + j := by ring
  rw [e3, (div_mod_aux hj).1, (div_mod_aux hj).2]

/-- `(I ⊗ A) B` by reshaping the columns of the transpose. -/
theorem kronIdAB_ok {B : Ops K} (hB : B.Ok) {S : Shp} {a : Mat K} {b z : Tensor K} {n : ℕ} (ha : a.WF S) (ka : 2 ≤ (den a).rank)
    (gb : Good S b) (hn : b.rows = n * (den a).cols) (h : kronIdAB B a b = .ok z) :
    z.bt = bsh (den a).bt b.bt ∧ ∀ T, Fits T (den a).bt → Fits T b.bt → Rep T (n * (den a).rows) b.cols z
      fun β i j => ∑ k ∈ Finset.range (den a).cols, (den a).at' β (i % (den a).rows) k * b.at' β (i / (den a).rows * (den a).cols + k) j := by
  simp only [kronIdAB, ha.shape, bind_ok_iff, Except.ok.injEq, exists_eq_left'] at h
  obtain ⟨x, hx, y, hy, yt, hyt, hz⟩ := h
  obtain ⟨hq, c, hc, rfl⟩ := reshapeCols_some gb.rank hx
  have hdim : dim (den a).sh 0 = (den a).cols := rfl
  rw [hdim] at hx hq hc hy
  have hc' : c = b.cols * n := by
    rw [hn, ← Nat.mul_assoc] at hc
    exact Nat.eq_of_mul_eq_mul_right hq hc
  subst hc'
  have X : ∀ T, Fits T b.bt → Rep T (den a).cols (b.cols * n) (tr (reshapeT ((den a).cols :: b.cols * n :: b.bt) (tr b))) _ :=
    fun T hT => ((Rep.self gb.rank hT).tr.reshape hc).tr
  have wx : Mat.WF S (.num (tr (reshapeT ((den a).cols :: b.cols * n :: b.bt) (tr b)))) := ⟨by have := (X S gb.fits).rank; omega, (X S gb.fits).bt⟩
  have m := hB.matmul ha wx ka (X S gb.fits).rank hy
  obtain rfl := hB.dense m.wf hyt
  have ey := m.eq
  simp only [trIf, Bool.false_eq_true, if_false, den] at ey
  have Y : ∀ T, Fits T (den a).bt → Fits T b.bt → Rep T (den a).rows (b.cols * n) (den y) _ := fun T h1 h2 =>
    ey ▸ (Rep.self ka h1).mm (X T h2)
  have YS := Y S ha.fits gb.fits
  obtain ⟨hm, r, hr, rfl⟩ := reshapeCols_none YS.rank hz
  have hr' : r = n * (den a).rows := by
    rw [YS.rows, YS.cols, Nat.mul_assoc] at hr
    exact Nat.eq_of_mul_eq_mul_left hm hr
  subst hr'
  refine ⟨by rw [tr_bt, reshapeT_bt, ey, mm_bt, tr_bt, reshapeT_bt], fun T h1 h2 => ?_⟩
  refine ((Y T h1 h2).tr.reshape (R' := b.cols) (C' := n * (den a).rows) (by rw [Nat.mul_assoc])).tr.congr ?_
  intro β i j hβ hi hj
  have hp : 0 < (den a).rows := by
    rcases Nat.eq_zero_or_pos (den a).rows with h0 | h0
    · rw [h0] at hi; simp at hi
    · exact h0
  have hin : i / (den a).rows < n := Nat.div_lt_of_lt_mul (by rw [Nat.mul_comm]; exact hi)
  have e1 : (j * (n * (den a).rows) + i) / (den a).rows = j * n + i / (den a).rows := by
    rw [← Nat.mul_assoc, Nat.add_comm, Nat.add_mul_div_right _ _ hp, Nat.add_comm]
  have e2 : (j * (n * (den a).rows) + i) % (den a).rows = i % (den a).rows := by
    rw [← Nat.mul_assoc, Nat.add_comm, Nat.add_mul_mod_self_right]
  rw [e1, e2]
  refine Finset.sum_congr rfl fun k hk => ?_
  rw [Finset.mem_range] at hk
  have e3 : ((j * n + i / (den a).rows) * (den a).cols + k) / b.rows = j := by
    rw [hn, Nat.mul_comm n, ← Nat.div_div_eq_div_mul, (div_mod_aux hk).1, (div_mod_aux hin).1]
  have e4 : ((j * n + i / (den a).rows) * (den a).cols + k) % b.rows = i / (den a).rows * (den a).cols + k := by
    rw [hn, Nat.mul_comm n, Nat.mod_mul, (div_mod_aux hk).1, (div_mod_aux hk).2, (div_mod_aux hin).2]; ring
  rw [e3, e4]

end Verif
