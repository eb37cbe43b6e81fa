/-
C50 for `triangular_solve`, and C48 for `reshape`: exactly which shapes are accepted.
-/
import Verif.Props12
import Verif.Methods2

set_option linter.unusedSectionVars false

namespace Verif

variable {K : Type} [Field K] [LinearOrder K] [IsStrictOrderedRing K]

/-! ### C50: `triangular_solve` -/

/-- C50.  `B.triangular_solve` with an invertible triangular matrix returns the solution, whatever the flag is (a Zero right-hand side is returned as it is). -/
theorem C50_triangular_solve_always (c : Cfg K) {lin : LinEnv K} (hl : lin.Good) {lower : Bool} {a b : Mat K} (ha : a.Supported) (hb : b.Supported) (hc : BatchCompat a b) (wb : b.wo false)
    (hk : a.kind = some .lt ∨ a.kind = some .ut) (hm : b.isAM = true) (hi : (den a).Invertible) (hr : (den a).rows = (den b).rows) :
    ∃ x, LReturns c lin (fun _ L => triangularSolve L lower a b) x ∧ x.Valid ∧ (IsSolution (den a) (den b) (den x) ∨ b.kind = some .zero ∧ x = b) := by
  obtain ⟨S, va⟩ := ha.valid
  obtain ⟨T, vb⟩ := hb.valid
  have h2a : 2 ≤ (den a).rank := by rcases hk with hk | hk <;> exact va.rank (by cases a <;> simp [Mat.kind] at hk <;> rfl)
  have h2b := vb.rank hm
  have e : ∀ L : LOps K, triangularSolve L lower a b = L.solve a b := by
    intro L
    rcases hk with hk | hk <;> cases a <;> simp [Mat.kind] at hk <;> simp [triangularSolve, hm]
  simp only [e]
  refine C50_solve_always c hl ha hb hc ?_ wb h2a h2b hr ?_ ?_ ?_
  all_goals rcases hk with hk | hk <;> cases a <;> simp [Mat.kind] at hk <;> first | exact hi | simp [NoKronRhs, Mat.kind]

/-! ### C48: `reshape` -/

theorem prod_known (m : ℕ) (s : List Int) : (s.map fun d => if d = -1 then m else d.toNat).prod = m ^ s.count (-1) * ((s.filter (· ≠ -1)).map Int.toNat).prod := by
  induction s with
  | nil => simp
  | cons d s ih =>
    by_cases h : d = -1
    · subst h
      simp [ih, pow_succ]
      ring
    · simp [ih, h]
      ring

theorem map_unknown {m m' : ℕ} {s : List Int} (h : s.count (-1) = 0) : (s.map fun d => if d = -1 then m else d.toNat) = s.map fun d => if d = -1 then m' else d.toNat := by
  refine List.map_congr_left fun d hd => ?_
  have : d ≠ -1 := fun e => by subst e; exact absurd hd (List.count_eq_zero.1 h)
  simp [this]

theorem shape_given {s : List Int} {s' : Shp} (hl : s'.length = s.length) (h1 : s.count (-1) ≤ 1) (hg : ∀ (q : ℕ) (d : Int), s[q]? = some d → d ≠ -1 → 0 ≤ d ∧ s'[q]? = some d.toNat) :
    ∃ m, s' = s.map fun d => if d = -1 then m else d.toNat := by
  induction s generalizing s' with
  | nil => exact ⟨0, List.length_eq_zero_iff.1 hl⟩
  | cons d s ih =>
    cases s' with
    | nil => simp at hl
    | cons x s' =>
      obtain ⟨m, rfl⟩ := ih (s' := s') (by simpa using hl) (le_trans (List.count_le_count_cons ..) h1) fun q e he hn => by simpa using hg (q + 1) e (by simpa using he) hn
      by_cases h : d = -1
      · subst h
        refine ⟨x, ?_⟩
        rw [List.map_cons, if_pos rfl, map_unknown (m := m) (m' := x)]
        simpa using h1
      · refine ⟨m, ?_⟩
        have := (hg 0 d rfl h).2
        simp only [List.getElem?_cons_zero, Option.some.injEq] at this
        rw [List.map_cons, if_neg h, this]

theorem resolveShape_iff {n : ℕ} {s : List Int} {s' : Shp} : resolveShape n s = .ok s' ∧ size s' = n ↔ ShapeFor n s s' ∧ (-1 ∈ s → (0 : Int) ∉ s) := by
  constructor
  · rintro ⟨h, hn⟩
    refine ⟨resolveShape_ok h hn, fun h1 h0 => ?_⟩
    simp only [resolveShape, bind_ok_iff, guardE_ok] at h
    obtain ⟨_, _, _, _, h⟩ := h
    rw [if_neg (by rw [List.count_eq_zero]; exact fun e => e h1)] at h
    simp only [bind_ok_iff] at h
    obtain ⟨m, hm, _⟩ := h
    unfold inferDim at hm
    split_ifs at hm with hh
    refine hh.1 (List.prod_eq_zero (List.mem_map.2 ⟨0, List.mem_filter.2 ⟨h0, by simp⟩, rfl⟩))
  · rintro ⟨h, h0⟩
    obtain ⟨m, e⟩ := shape_given h.len h.one h.given
    have hn := h.size
    refine ⟨?_, hn⟩
    have hk : ∀ d ∈ s.filter (· ≠ -1), 0 ≤ d := fun d hd => by
      obtain ⟨hd, hne⟩ := List.mem_filter.1 hd
      obtain ⟨q, hq⟩ := List.mem_iff_getElem?.1 hd
      exact (h.given q d hq (by simpa using hne)).1
    unfold resolveShape
    simp only [guardE, if_pos hk, if_pos h.one, bind, Except.bind, pure, Except.pure]
    have hp : size s' = m ^ s.count (-1) * ((s.filter (· ≠ -1)).map Int.toNat).prod := by rw [e]; exact prod_known m s
    by_cases hc : s.count (-1) = 0
    · rw [if_pos hc, e]
      congr 1
      refine List.map_congr_left fun d hd => ?_
      have : d ≠ -1 := fun e => by subst e; exact absurd hd (List.count_eq_zero.1 hc)
      simp [this]
    · rw [if_neg hc]
      have h1 : s.count (-1) = 1 := by have := h.one; omega
      rw [h1, pow_one, hn] at hp
      have hz : ((s.filter (· ≠ -1)).map Int.toNat).prod ≠ 0 := by
        rw [Ne, List.prod_eq_zero_iff, List.mem_map]
        rintro ⟨d, hd, hd0⟩
        have h2 := hk d hd
        have : d = 0 := by omega
        subst this
        exact h0 (List.count_pos_iff.1 (by omega)) (List.mem_filter.1 hd).1
      unfold inferDim
      rw [if_pos ⟨hz, ⟨m, by rw [hp]; ring⟩⟩]
      simp only []
      rw [hp, Nat.mul_div_cancel _ (Nat.pos_of_ne_zero hz), e]

theorem resolveShape_error {n : ℕ} {s : List Int} {e : Err} (h : resolveShape n s = .error e) : e = .value := by
  unfold resolveShape guardE inferDim at h
  simp only [bind, Except.bind, pure, Except.pure] at h
  split_ifs at h <;> simp_all

/-- C48.  `a.reshape(*shape)` returns for every shape with the right number of entries, where one size may be `-1` if no other size is zero. -/
theorem C48_reshape_returns (c : Cfg K) {a : Mat K} {s : List Int} {s' : Shp} (ha : a.Supported) (hx : Exact c fun B => B.dense a) (hs : ShapeFor (size (den a).sh) s s')
    (h0 : -1 ∈ s → (0 : Int) ∉ s) : ∃ r, Returns c (fun B => reshapeMethod B a s) r ∧ IsReshape s' (den a) r := by
  obtain ⟨h, hn⟩ := resolveShape_iff.2 ⟨hs, h0⟩
  refine ⟨reshapeT s' (den a), Returns.of_dense (C45_dense c ha hx) ?_, rfl, hn, fun i j hi hj e => ?_⟩
  · rw [h]
    show nReshape _ _ = _
    rw [nReshape, if_pos hn]
  · rw [reshapeT, ofFn_get _ hi, ← get_unlin_lin _ hj, ← rowMajor_eq, ← rowMajor_eq, e]

/-- C48.  Every other shape is a ValueError. -/
theorem C48_reshape_impossible (c : Cfg K) {a : Mat K} {s : List Int} (ha : a.Supported) (hx : Exact c fun B => B.dense a)
    (h : ¬∃ s', ShapeFor (size (den a).sh) s s' ∧ (-1 ∈ s → (0 : Int) ∉ s)) : Raises c (fun B => reshapeMethod B a s) .value := by
  obtain ⟨n, hd⟩ := C45_dense c ha hx
  refine ⟨by decide, n, ?_⟩
  show (ops c.code n).dense a >>= _ = _
  rw [show (ops c.code n).dense a = .ok (den a) from hd]
  show resolveShape _ _ >>= _ = _
  cases hr : resolveShape (size (den a).sh) s with
  | error e => rw [resolveShape_error hr]; rfl
  | ok s' =>
    show nReshape s' (den a) = _
    unfold nReshape
    rw [if_neg]
    exact fun hn => h ⟨s', resolveShape_iff.1 ⟨hr, hn⟩⟩

/-! ### The hypotheses are met -/

namespace Ex

/-- The entries of an invertible lower-triangular matrix. -/
noncomputable def triR : Tensor ℝ := mR 2 2 [2, 0, 1, 3]

theorem triR_at {l : List ℝ} {β : Idx} {i j : ℕ} (hβ : InRange [] β) (hi : i < 2) (hj : j < 2) : (mR 2 2 l).at' β i j = l.getD (i * 2 + j) 0 := mR_at hβ hi hj

theorem triR_lower : LowerTri triR := by
  intro β i j hβ hi hj h
  have hi : i < 2 := hi
  have hj : j < 2 := hj
  obtain ⟨rfl, rfl⟩ : i = 0 ∧ j = 1 := by omega
  rw [triR, triR_at hβ hi hj]
  rfl

theorem triR_inv : triR.Invertible := by
  refine ⟨mR 2 2 [1 / 2, 0, -1 / 6, 1 / 3], le_refl _, rfl, rfl, fun β i j hβ hi hj => ?_, fun β i j hβ hi hj => ?_⟩ <;>
  · have hr : triR.rows = 2 := rfl
    rw [hr] at hi hj ⊢
    rw [Finset.sum_range_succ, Finset.sum_range_succ, Finset.sum_range_zero, triR, triR_at hβ hi (by omega : 0 < 2), triR_at hβ hi (by omega : 1 < 2), triR_at hβ (by omega : 0 < 2) hj,
      triR_at hβ (by omega : 1 < 2) hj]
    interval_cases i <;> interval_cases j <;> norm_num

example : ∃ x, LReturns cfgR realLin (fun _ L => triangularSolve L false (.lt triR) BR) x ∧ x.Valid ∧
    (IsSolution (den (.lt triR)) (den BR) (den x) ∨ BR.kind = some .zero ∧ x = BR) :=
  C50_triangular_solve_always _ realLin_good (supportedR ⟨le_refl _, Fits.nil _, rfl, triR_lower⟩ trivial rfl) BR_supported (Compat.refl _) trivial (.inl rfl) rfl triR_inv rfl

end Ex

example : ∃ r, Returns Ex.cfg (fun B => reshapeMethod B Ex.W [-1, 1, 2]) r ∧ IsReshape [2, 1, 2] (den Ex.W) r := by
  refine C48_reshape_returns Ex.cfg Ex.W_supported Ex.W_exact (resolveShape_ok (n := 4) ?_ ?_) (by decide) <;> decide
example : Raises Ex.cfg (fun B => reshapeMethod B Ex.W [-1, 3]) .value := by
  refine C48_reshape_impossible Ex.cfg Ex.W_supported Ex.W_exact fun ⟨s', h⟩ => ?_
  obtain ⟨h, -⟩ := (resolveShape_iff (n := 4)).2 h
  exact absurd h (by rw [show resolveShape 4 [-1, 3] = .error .value by decide]; simp)
example : Raises Ex.cfg (fun B => reshapeMethod B Ex.W [5]) .value := by
  refine C48_reshape_impossible Ex.cfg Ex.W_supported Ex.W_exact fun ⟨s', h, _⟩ => ?_
  have h1 := (h.given 0 5 rfl (by decide)).2
  have h2 := h.len
  have h3 : size s' = 4 := h.size
  match s', h1, h2, h3 with
  | [_], h1, _, h3 =>
    simp only [List.getElem?_cons_zero, Option.some.injEq] at h1
    subst h1
    exact absurd h3 (by decide)

end Verif
