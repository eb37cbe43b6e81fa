/-
C12.  `B.sum` and `B.mean` over every axis and over all entries.
-/
import Verif.OpsNeg
import Verif.Ex
import Mathlib.Tactic.Ring

set_option linter.unusedSectionVars false

namespace Verif

variable {K : Type} [Field K] [LinearOrder K]

/-! ### The model -/

/-- `B.sum(a)`, `ops/sum.py` (the branches `resolved_axis is None`). -/
def sumAllM (B : Ops K) : Mat K → E (Tensor K)
  | .num t => nSum t none
  | .zero .. => .ok (scalarT 0)  -- 23-24
  | .dense t => nSum t none  -- 36-41
  | .lt t => nSum t none
  | .ut t => nSum t none
  | .diag d => nSum d none  -- 46-47
  | .const t r c => do return tmap (fun x => x * (r : K) * (c : K)) (← nSum t none)  -- 59-60
  | .lr l r m => do  -- 75-78
    let lm ← B.matmul false false l m
    let x ← B.sumM 1 lm
    let y ← B.sumM 1 r
    nSum (← nMul x y) none
  | .wb d l r m => do  -- 103-107
    let x ← nSum (← B.sumM 0 (.diag d)) (some (-1))
    let y ← nSum (← B.sumM 0 (.lr l r m)) (some (-1))
    nSum (← nAdd y x) none
  | .kron l r => do  -- 120-123
    let x ← nSum (← B.sumM 0 l) (some (-1))
    let y ← nSum (← B.sumM 0 r) (some (-1))
    nSum (← nMul x y) none
  | .tiled .. => .error .notFound

/-- The axis at position `k` from the end, numbered from the front in a tensor of rank `n`: `resolve_axis(a, axis)`. -/
def posAxis (n k : ℕ) : Int := (n : Int) - 1 - k

/-- `B.sum(a, axis)` over a batch axis, at position `k ≥ 2` from the end, of a matrix of rank `n`, `ops/sum.py` (the last branches);
the sums of a Diagonal and a Constant matrix are again structured. -/
def sumBatchM (B : Ops K) (n k : ℕ) : Mat K → E (Mat K)
  | .num t => do return .num (← nSum t (some (posAxis n k)))
  | .zero bt r c => .ok (.num (fillT (c :: r :: bt.eraseIdx (k - 2)) 0))  -- 29-33
  | .dense t => do return .num (← nSum t (some (posAxis n k)))  -- 36-41
  | .lt t => do return .num (← nSum t (some (posAxis n k)))
  | .ut t => do return .num (← nSum t (some (posAxis n k)))
  | .diag d => do mkDiag (← nSum d (some (posAxis n k)))  -- 50-52
  | .const t r c => do mkConst (← nSum t (some (posAxis n k))) [c, r]  -- 67-69
  | .lr l r m => do return .num (← nSum (← B.dense (.lr l r m)) (some (posAxis n k)))  -- 95-99
  | .wb d l r m => do  -- 110-114
    let p ← alignBatch2 (.diag d) (.lr l r m)
    match p.1 with
    | .diag d' => do
      let x ← mkDiag (← nSum d' (some (posAxis n k)))
      let y ← nSum (← B.dense p.2) (some (posAxis n k))
      B.add x (.num y)
    | _ => .error .notFound
  | .kron l r => do return .num (← nSum (← B.dense (.kron l r)) (some (posAxis n k)))  -- 135-140
  | .tiled .. => .error .notFound

/-- `B.sum(a, axis)`, `ops/sum.py`. -/
def sumFull (B : Ops K) (a : Mat K) (axis : Option Int) : E (Mat K) :=
  match axis with
  | none => do return .num (← sumAllM B a)
  | some ax => do
    let n ← rankM a
    let k ← axPos n ax
    if k < 2 then return .num (← B.sumM k a) else sumBatchM B n k a

/-- `B.mean(a, axis)`, `ops/mean.py` 13-19.  (`B.mean` of a numeric operand is in the backend.) -/
def meanM (env : Env K) (B : Ops K) (a : Mat K) (axis : Option Int) : E (Mat K) := do
  let s ← shape a
  let n ← (match axis with
    | none => .ok (size s)
    | some ax => do return dim s (← axPos s.length ax) : E ℕ)
  divideM env B (← sumFull B a axis) (.num (scalarT (n : K)))

/-! ### Specification -/

/-- The sum of `f` over all indices of a shape. -/
def sumEntries : Shp → (Idx → K) → K
  | [], f => f fun _ => 0
  | d :: s, f => ∑ x ∈ Finset.range d, sumEntries s fun i => f (icons x i)

/-- `r` is the number that is the sum of all entries of `a`. -/
structure IsSumAll (a r : Tensor K) : Prop where
  shape : r.sh = []
  entry : r.get (fun _ => 0) = sumEntries a.sh a.get

/-! ### Sums over all entries -/

theorem sumEntries_congr {s : Shp} {f g : Idx → K} (h : ∀ i, InRange s i → f i = g i) : sumEntries s f = sumEntries s g := by
  induction s generalizing f g with
  | nil => exact h _ fun _ => Nat.zero_lt_one
  | cons d s ih =>
    refine Finset.sum_congr rfl fun x hx => ih fun i hi => h _ ?_
    rw [inRange_cons]; exact ⟨Finset.mem_range.1 hx, hi⟩

theorem sumEntries_sum {s : Shp} {n : ℕ} (f : ℕ → Idx → K) : ∑ x ∈ Finset.range n, sumEntries s (f x) = sumEntries s fun i => ∑ x ∈ Finset.range n, f x i := by
  induction s generalizing f with
  | nil => rfl
  | cons d s ih =>
    simp only [sumEntries]
    rw [Finset.sum_comm]
    exact Finset.sum_congr rfl fun x _ => ih _

theorem sumEntries_mul {s : Shp} (f : Idx → K) (a : K) : sumEntries s f * a = sumEntries s fun i => f i * a := by
  induction s generalizing f with
  | nil => rfl
  | cons d s ih =>
    simp only [sumEntries, Finset.sum_mul]
    exact Finset.sum_congr rfl fun x _ => ih _

theorem sumEntries_zero (s : Shp) : sumEntries s (fun _ => (0 : K)) = 0 := by
  induction s with
  | nil => rfl
  | cons d s ih => simp [sumEntries, ih]

/-- Summing over the axis at position `k` first. -/
theorem sumEntries_ax {s : Shp} {k : ℕ} (h : k < s.length) (f : Idx → K) :
    sumEntries s f = sumEntries (s.eraseIdx k) fun i => ∑ x ∈ Finset.range (dim s k), f (insAt k x i) := by
  induction s generalizing k f with
  | nil => simp at h
  | cons d s ih =>
    cases k with
    | zero =>
      simp only [sumEntries, List.eraseIdx_cons_zero, insAt]
      exact sumEntries_sum _
    | succ k =>
      simp only [sumEntries, List.eraseIdx_cons_succ]
      refine Finset.sum_congr rfl fun x _ => ?_
      rw [ih (by simpa using h)]
      rfl

theorem sumAll_eq (t : Tensor K) : ∑ n ∈ Finset.range (size t.sh), t.get (unlin t.sh n) = sumEntries t.sh t.get := by
  have key : ∀ (s : Shp) (f : Idx → K), ∑ n ∈ Finset.range (size s), f (unlin s n) = sumEntries s f := by
    intro s
    induction s with
    | nil => intro f; simp [size, sumEntries, unlin]
    | cons d s ih =>
      intro f
      have : size (d :: s) = size s * d := by simp [size, Nat.mul_comm]
      rw [this, sum_range_mul, Finset.sum_comm]
      simp only [sumEntries]
      refine Finset.sum_congr rfl fun x hx => ?_
      rw [← ih]
      refine Finset.sum_congr rfl fun q _ => ?_
      have hx := Finset.mem_range.1 hx
      have e1 : (q * d + x) % d = x := by rw [Nat.mul_comm, Nat.mul_add_mod]; exact Nat.mod_eq_of_lt hx
      have e2 : (q * d + x) / d = q := by
        rw [Nat.mul_comm, Nat.mul_add_div (by omega), Nat.div_eq_of_lt hx, Nat.add_zero]
      simp only [unlin, e1, e2]
  exact key _ _

theorem sumAll_get (t : Tensor K) (i : Idx) : (sumAll t).get i = sumEntries t.sh t.get := by
  have e : (sumAll t).get i = (sumAll t).get fun _ => 0 := by
    rw [← (sumAll t).get_clip, ← (sumAll t).get_clip (i := fun _ => 0)]
    congr 1
    funext k
    simp [clip, sumAll, ofFn, dim]
  rw [e, sumAll, ofFn_get _ (fun _ => Nat.zero_lt_one)]
  exact sumAll_eq t

theorem IsSumAll.of_eq {a r : Tensor K} (h : r = sumAll a) : IsSumAll a r := by
  subst h; exact ⟨rfl, sumAll_get a _⟩

/-- The total can be taken along an axis first. -/
theorem sumAll_sumAx {t : Tensor K} {k : ℕ} (h : k < t.rank) : sumAll (sumAx k t) = sumAll t := by
  refine Tensor.ext_inRange rfl fun i _ => ?_
  rw [sumAll_get, sumAll_get, sumEntries_ax h, sumAx_sh]
  exact sumEntries_congr fun i hi => ofFn_get _ hi

/-- The total of a batch of matrices, one matrix at a time. -/
theorem total_mat {t : Tensor K} {r c : ℕ} {f : Idx → ℕ → ℕ → K} (h : Rep t.bt r c t f) (i : Idx) :
    (sumAll t).get i = sumEntries t.bt fun β => ∑ x ∈ Finset.range r, ∑ y ∈ Finset.range c, f β x y := by
  rw [sumAll_get]
  have e := h.sh
  conv_lhs => rw [e]
  simp only [sumEntries]
  rw [Finset.sum_congr rfl fun x _ => sumEntries_sum _, sumEntries_sum]
  refine sumEntries_congr fun β hβ => ?_
  rw [Finset.sum_comm]
  refine Finset.sum_congr rfl fun x hx => Finset.sum_congr rfl fun y hy => ?_
  exact h.at' β x y hβ (Finset.mem_range.1 hx) (Finset.mem_range.1 hy)

/-- The total of a batch of vectors, one vector at a time. -/
theorem total_vec {t : Tensor K} {n : ℕ} {u : Idx → ℕ → K} (h : VRep t.sh.tail n t u) (i : Idx) :
    (sumAll t).get i = sumEntries t.sh.tail fun β => ∑ x ∈ Finset.range n, u β x := by
  rw [sumAll_get]
  have e := h.sh
  conv_lhs => rw [e]
  simp only [sumEntries]
  rw [sumEntries_sum]
  refine sumEntries_congr fun β hβ => ?_
  refine Finset.sum_congr rfl fun x hx => ?_
  exact h.vat β x hβ (Finset.mem_range.1 hx)

theorem sumAll_ext {a b : Tensor K} (h : ∀ i, (sumAll a).get i = (sumAll b).get i) : sumAll a = sumAll b :=
  Tensor.ext_inRange rfl fun i _ => h i

/-- The total of each vector of a batch. -/
theorem total_vget {S : Shp} {t : Tensor K} {n : ℕ} {u : Idx → ℕ → K} (h : VRep S n t u) {β : Idx} (hβ : InRange S β) :
    (sumAx 0 t).get β = ∑ x ∈ Finset.range n, u β x := by
  have e : t.sh.eraseIdx 0 = t.sh.tail := by rw [List.eraseIdx_zero]
  have e1 : dim t.sh 0 = n := h.len
  unfold sumAx
  rw [e, ofFn_get_fits (S := S) _ hβ h.bt, e1]
  refine Finset.sum_congr rfl fun x hx => ?_
  have hx := Finset.mem_range.1 hx
  rw [← h.vat β x hβ hx]
  have es := h.sh
  unfold Tensor.vat
  rw [← t.get_clip (icons x β), ← t.get_clip (insAt 0 x _)]
  generalize t.sh.tail = q at *
  rw [es]
  congr 1
  show clip (n :: q) (icons x (clip q β)) = _
  rw [clip_cons_of_lt hx, clip_cons_of_lt hx, clip_clip]

/-- The total of each matrix of a batch. -/
theorem total_get {S : Shp} {t : Tensor K} {r c : ℕ} {f : Idx → ℕ → ℕ → K} (h : Rep S r c t f) {β : Idx} (hβ : InRange S β) :
    (sumAx 0 (sumAx 0 t)).get β = ∑ x ∈ Finset.range r, ∑ y ∈ Finset.range c, f β x y :=
  total_vget (VRep.sumAx0 h) hβ

theorem total_sh {t : Tensor K} (h : 2 ≤ t.rank) : (sumAx 0 (sumAx 0 t)).sh = t.bt := by
  rw [sumAx_sh, sumAx_sh]; conv_lhs => rw [Tensor.sh_eq h]
  rfl

/-- The total of a batch of matrices from the totals of the matrices. -/
theorem sumAll_of_batch {a v : Tensor K} {r c : ℕ} {f : Idx → ℕ → ℕ → K} (h : Rep a.bt r c a f) (hs : v.sh = a.bt)
    (hv : ∀ β, InRange a.bt β → v.get β = ∑ x ∈ Finset.range r, ∑ y ∈ Finset.range c, f β x y) : sumAll v = sumAll a := by
  refine sumAll_ext fun i => ?_
  rw [total_mat h, sumAll_get, hs]
  exact sumEntries_congr hv

theorem nSum_last' {t v : Tensor K} (_ : 1 ≤ t.rank) (h : nSum t (some (-1)) = .ok v) : v = sumAx 0 t := by
  simp only [nSum, bind_ok_iff, pure_eq_ok] at h
  obtain ⟨k', hk', rfl⟩ := h
  have : k' = 0 := by
    unfold axPos at hk'
    split_ifs at hk' <;> simp at hk' <;> omega
  rw [this]

theorem sumAllM_ok {B : Ops K} (hB : B.Ok) {S : Shp} {a : Mat K} {v : Tensor K} (ha : a.WF S) 
    (h : sumAllM B a = .ok v) : v = sumAll (den a) := by
  cases a with
  | num t => simp only [sumAllM, nSum, Except.ok.injEq] at h; exact h.symm
  | dense t => simp only [sumAllM, nSum, Except.ok.injEq] at h; exact h.symm
  | lt t => simp only [sumAllM, nSum, Except.ok.injEq] at h; exact h.symm
  | ut t => simp only [sumAllM, nSum, Except.ok.injEq] at h; exact h.symm
  | zero bt r c =>
    simp only [sumAllM, Except.ok.injEq] at h
    subst h
    refine Tensor.ext_inRange rfl fun i hi => ?_
    rw [sumAll_get, den, fillT_sh, sumEntries_congr (g := fun _ => 0), sumEntries_zero]
    · exact fillT_get 0 (S := []) hi (Fits.refl _)
    · intro i hi; exact fillT_get 0 hi (Fits.refl _)
  | diag d =>
    simp only [sumAllM, nSum, Except.ok.injEq] at h
    subst h
    refine sumAll_ext fun i => ?_
    have V := VRep.self ha.1 (Fits.refl d.sh.tail)
    rw [total_vec V, total_mat (t := den (.diag d)) (Rep.diagC V)]
    refine sumEntries_congr fun β _ => Finset.sum_congr rfl fun x hx => ?_
    exact (sum_diag (Finset.mem_range.1 hx) _).symm
  | const t r c =>
    simp only [sumAllM, nSum, bind_ok_iff, Except.ok.injEq, exists_eq_left', pure_eq_ok] at h
    subst h
    refine Tensor.ext_inRange rfl fun i hi => ?_
    rw [total_mat (t := den (.const t r c)) (Rep.constM (Fits.refl _) r c), tmap_get (t := sumAll t) _ hi (Fits.refl _), sumAll_get, sumEntries_mul, sumEntries_mul]
    refine sumEntries_congr fun β _ => ?_
    simp; ring
  | lr l r m =>
    have hw := ha
    obtain ⟨⟨hl, hr, hm⟩, ⟨kl, kr, km⟩, c1, c2⟩ := ha
    have gl := hl.good kl; have gr := hr.good kr; have gm := hm.good km
    simp only [sumAllM, bind_ok_iff, nMul_ok, nSum, Except.ok.injEq] at h
    obtain ⟨lm, hlm, x, hx, y, hy, p, ⟨_, rfl⟩, rfl⟩ := h
    have M := hB.matmul hl hm kl km hlm
    have el : den lm = mm (den l) (den m) := M.eq
    have gp : Good S (den lm) := by rw [el]; exact gl.mm gm
    obtain rfl := hB.sumM le_rfl M.wf gp.rank hx
    obtain rfl := hB.sumM le_rfl hr kr hy
    have hl' := gp.fits; have hr' := gr.fits
    have f1 : Fits (bsh (den lm).bt (den r).bt) (den lm).bt := by fitsIn S
    have f2 : Fits (bsh (den lm).bt (den r).bt) (den r).bt := by fitsIn S
    have A := Rep.self gp.rank f1
    have C := Rep.self' (c := (den lm).cols) kr rfl (by rw [el, mm_cols]; exact c2) f2
    have V := (VRep.sumAx1 A).zipB (· * ·) (VRep.sumAx1 C)
    have W := A.mm C.tr
    have e1 : (zipB (· * ·) (sumAx 1 (den lm)) (sumAx 1 (den r))).sh.tail = bsh (den lm).bt (den r).bt := by
      rw [zipB_sh, ← List.drop_one, drop_bsh, List.drop_one, List.drop_one, sumAx_tail gp.rank le_rfl, sumAx_tail kr le_rfl]
    refine sumAll_ext fun i => ?_
    rw [total_vec (by rw [e1]; exact V), e1]
    have ed : den (.lr l r m) = mm (den lm) (tr (den r)) := by rw [el]; rfl
    rw [ed, total_mat (t := mm (den lm) (tr (den r))) W]
    refine sumEntries_congr fun β hβ => ?_
    simp only [Finset.sum_mul_sum]
    rw [Finset.sum_comm]
    refine Finset.sum_congr rfl fun x _ => ?_
    rw [Finset.sum_comm]
  | wb d l r m =>
    simp only [sumAllM, bind_ok_iff, nAdd_ok] at h
    obtain ⟨x', hx', x, hx, y', hy', y, hy, p, ⟨_, rfl⟩, h⟩ := h
    have wd := WF.diagPart ha
    have wl := WF.lrPart ha
    obtain rfl := hB.sumM (by omega) wd (wd.rank rfl) hx'
    obtain rfl := hB.sumM (by omega) wl (wl.rank rfl) hy'
    have gd := wd.good (wd.rank rfl); have gl := wl.good (wl.rank rfl)
    obtain rfl := nSum_last' (sumAx_good (by omega) gd).rank hx
    obtain rfl := nSum_last' (sumAx_good (by omega) gl).rank hy
    simp only [nSum, Except.ok.injEq] at h
    subst h
    have hd' := gd.fits; have hl' := gl.fits
    have f1 : Fits (bsh (den (.diag d)).bt (den (.lr l r m)).bt) (den (.diag d)).bt := by fitsIn S
    have f2 : Fits (bsh (den (.diag d)).bt (den (.lr l r m)).bt) (den (.lr l r m)).bt := by fitsIn S
    have A := Rep.self' gd.rank ha.2.2.2.2.1.symm ha.2.2.2.2.2.symm f1
    have C := Rep.self gl.rank f2
    have e : (den (.wb d l r m)).bt = bsh (den (.diag d)).bt (den (.lr l r m)).bt := zipB_bt
    refine sumAll_of_batch (a := den (.wb d l r m)) (by rw [e]; exact A.zipB (· + ·) C) ?_ ?_
    · rw [zipB_sh, total_sh gd.rank, total_sh gl.rank, e, bsh_comm]
    · intro β hβ
      rw [e] at hβ
      rw [zipB_get (S := bsh (den (.diag d)).bt (den (.lr l r m)).bt) _ hβ (by rw [total_sh gl.rank]; exact f2) (by rw [total_sh gd.rank]; exact f1),
        total_get A hβ, total_get C hβ, add_comm]
      simp only [Finset.sum_add_distrib]
      rfl
  | kron l r =>
    have hw := ha
    obtain ⟨⟨hl, hr⟩, kl, kr⟩ := ha
    simp only [sumAllM, bind_ok_iff, nMul_ok] at h
    obtain ⟨x', hx', x, hx, y', hy', y, hy, p, ⟨_, rfl⟩, h⟩ := h
    obtain rfl := hB.sumM (by omega) hl kl hx'
    obtain rfl := hB.sumM (by omega) hr kr hy'
    have gl := hl.good kl; have gr := hr.good kr
    obtain rfl := nSum_last' (sumAx_good (by omega) gl).rank hx
    obtain rfl := nSum_last' (sumAx_good (by omega) gr).rank hy
    simp only [nSum, Except.ok.injEq] at h
    subst h
    have hd' := gl.fits; have hl' := gr.fits
    have f1 : Fits (bsh (den l).bt (den r).bt) (den l).bt := by fitsIn S
    have f2 : Fits (bsh (den l).bt (den r).bt) (den r).bt := by fitsIn S
    have A := Rep.self kl f1
    have C := Rep.self kr f2
    refine sumAll_of_batch (a := den (.kron l r)) (A.kronT C) ?_ ?_
    · rw [zipB_sh, total_sh kl, total_sh kr]; rfl
    · intro β hβ
      have hβ : InRange (bsh (den l).bt (den r).bt) β := hβ
      rw [zipB_get (S := bsh (den l).bt (den r).bt) _ hβ (by rw [total_sh kl]; exact f1) (by rw [total_sh kr]; exact f2), total_get A hβ, total_get C hβ]
      show _ = ∑ x ∈ Finset.range ((den l).rows * (den r).rows), ∑ y ∈ Finset.range ((den l).cols * (den r).cols), _
      rw [← sum_kron]
      refine Finset.sum_congr rfl fun x _ => ?_
      exact (sum_kron _ _ (fun y => (den l).at' β (x / (den r).rows) y) (fun y => (den r).at' β (x % (den r).rows) y)).symm
  | tiled n blk reps axis => simp [sumAllM] at h

/-! ### Sums over batch axes -/

theorem inRange_insAt {s : Shp} {k x : ℕ} {i : Idx} (hk : k < s.length) (hx : x < dim s k) (h : InRange (s.eraseIdx k) i) : InRange s (insAt k x i) := by
  induction k generalizing s i with
  | zero =>
    cases s with
    | nil => simp at hk
    | cons d s => rw [insAt, inRange_cons]; exact ⟨hx, h⟩
  | succ k ih =>
    cases s with
    | nil => simp at hk
    | cons d s =>
      rw [List.eraseIdx_cons_succ] at h
      rw [← icons_itail i, inRange_cons] at h
      rw [insAt, inRange_cons]
      exact ⟨h.1, ih (by simpa using hk) hx h.2⟩

theorem at_sumAx {t : Tensor K} {k i j : ℕ} {β : Idx} (h2 : 2 ≤ t.rank) (hβ : InRange (t.bt.eraseIdx k) β) (hi : i < t.rows) (hj : j < t.cols) :
    (sumAx (k + 2) t).at' β i j = ∑ x ∈ Finset.range (dim t.bt k), t.at' (insAt k x β) i j := by
  have e := Tensor.sh_eq h2
  have e1 : t.sh.eraseIdx (k + 2) = t.cols :: t.rows :: t.bt.eraseIdx k := by
    conv_lhs => rw [e]
    rfl
  have e2 : dim t.sh (k + 2) = dim t.bt k := by
    conv_lhs => rw [e]
    rfl
  unfold Tensor.at' sumAx
  rw [e1, ofFn_get _ (by simp [hi, hj, hβ]), e2]
  rfl

theorem vat_sumAx {t : Tensor K} {k i : ℕ} {β : Idx} (h2 : 1 ≤ t.rank) (hβ : InRange (t.sh.tail.eraseIdx k) β) (hi : i < t.cols) :
    (sumAx (k + 1) t).vat β i = ∑ x ∈ Finset.range (dim t.sh.tail k), t.vat (insAt k x β) i := by
  have e := Tensor.sh_eq_vec h2
  have e1 : t.sh.eraseIdx (k + 1) = t.cols :: t.sh.tail.eraseIdx k := by
    conv_lhs => rw [e]
    rfl
  have e2 : dim t.sh (k + 1) = dim t.sh.tail k := by
    conv_lhs => rw [e]
    rfl
  unfold Tensor.vat sumAx
  rw [e1, ofFn_get _ (by simp [hi, hβ]), e2]
  rfl

theorem sumAx_mat_sh {t : Tensor K} (h2 : 2 ≤ t.rank) (k : ℕ) : (sumAx (k + 2) t).sh = t.cols :: t.rows :: t.bt.eraseIdx k := by
  rw [sumAx_sh]; conv_lhs => rw [Tensor.sh_eq h2]
  rfl

theorem sumAx_vec_sh {t : Tensor K} (h2 : 1 ≤ t.rank) (k : ℕ) : (sumAx (k + 1) t).sh = t.cols :: t.sh.tail.eraseIdx k := by
  rw [sumAx_sh]; conv_lhs => rw [Tensor.sh_eq_vec h2]
  rfl

theorem sumAx_diagC {d : Tensor K} {k : ℕ} (h1 : 1 ≤ d.rank) (hk : k < d.sh.tail.length) : sumAx (k + 2) (diagC d) = diagC (sumAx (k + 1) d) := by
  have hs := sumAx_vec_sh h1 k
  have hc : (sumAx (k + 1) d).cols = d.cols := by rw [Tensor.cols, hs]; rfl
  have ht : (sumAx (k + 1) d).sh.tail = d.sh.tail.eraseIdx k := by rw [hs]; rfl
  refine Tensor.ext_mat (bt := d.sh.tail.eraseIdx k) (r := d.cols) (c := d.cols) (sumAx_mat_sh (by simp [Tensor.rank]) k) (by rw [diagC_sh, hc, ht]) ?_
  intro β i j hβ hi hj
  rw [at_sumAx (t := diagC d) (by simp [Tensor.rank]) hβ hi hj, at_diagC hβ (by rw [ht]; exact Fits.refl _) (by rw [hc]; exact hi) (by rw [hc]; exact hj)]
  show ∑ x ∈ Finset.range (dim d.sh.tail k), _ = _
  rw [Finset.sum_congr rfl fun x hx => at_diagC (inRange_insAt hk (Finset.mem_range.1 hx) hβ) (Fits.refl _) hi hj]
  split_ifs
  · rw [vat_sumAx h1 hβ hi]
  · simp

theorem sumAx_constM {t : Tensor K} {k r c : ℕ} (hk : k < t.sh.length) : sumAx (k + 2) (constM t r c) = constM (sumAx k t) r c := by
  refine Tensor.ext_mat (bt := t.sh.eraseIdx k) (r := r) (c := c) rfl rfl ?_
  intro β i j hβ hi hj
  rw [at_sumAx (t := constM t r c) (by simp [Tensor.rank]) hβ hi hj, at_constM hβ (Fits.refl _) hi hj]
  show ∑ x ∈ Finset.range (dim t.sh k), _ = _
  rw [Finset.sum_congr rfl fun x hx => at_constM (inRange_insAt hk (Finset.mem_range.1 hx) hβ) (Fits.refl _) hi hj]
  unfold sumAx
  rw [ofFn_get _ hβ]

theorem sumAx_zip {a b : Tensor K} {k : ℕ} (hk : k < a.sh.length) (hs : a.sh = b.sh) :
    sumAx k (zipB (· + ·) a b) = zipB (· + ·) (sumAx k a) (sumAx k b) := by
  have e : (zipB (· + ·) a b).sh = a.sh := by rw [zipB_sh, ← hs, bsh_self]
  refine Tensor.ext_inRange (by rw [sumAx_sh, e, zipB_sh, sumAx_sh, sumAx_sh, ← hs, bsh_self]) ?_
  intro i hi
  rw [sumAx_sh, e] at hi
  rw [zipB_get _ hi (by rw [sumAx_sh]; exact Fits.refl _) (by rw [sumAx_sh, ← hs]; exact Fits.refl _)]
  unfold sumAx
  rw [e, ← hs, ofFn_get _ hi, ofFn_get _ hi, ofFn_get _ hi, ← Finset.sum_add_distrib]
  refine Finset.sum_congr rfl fun x hx => ?_
  rw [zipB_get _ (inRange_insAt hk (Finset.mem_range.1 hx) hi) (Fits.refl _) (by rw [← hs]; exact Fits.refl _)]

theorem sumAx_fill {s : Shp} {k : ℕ} (hk : k < s.length) : sumAx k (fillT s (0 : K)) = fillT (s.eraseIdx k) 0 := by
  refine Tensor.ext_inRange rfl fun i hi => ?_
  have hi : InRange (s.eraseIdx k) i := hi
  rw [fillT_get 0 hi (Fits.refl _)]
  unfold sumAx
  rw [fillT_sh]
  rw [ofFn_get _ hi]
  refine Finset.sum_eq_zero fun x hx => ?_
  rw [fillT_get 0 (inRange_insAt hk (Finset.mem_range.1 hx) hi) (Fits.refl _)]

theorem nSum_pos {t v : Tensor K} {n k q : ℕ} (hr : t.rank + q = n) (hk : k < n) (h : nSum t (some (posAxis n k)) = .ok v) : v = sumAx (k - q) t := by
  simp only [nSum, bind_ok_iff, pure_eq_ok, posAxis] at h
  obtain ⟨k', hk', rfl⟩ := h
  have : k' = k - q := by
    unfold axPos at hk'
    split_ifs at hk' <;> simp at hk' <;> omega
  rw [this]

theorem bbT_self' {t : Tensor K} {T : Shp} (h2 : 2 ≤ t.rank) (h : t.bt = T) : bbT T t = t := by
  subst h
  unfold bbT
  rw [← Tensor.sh_eq h2, bcast_self]

theorem sumBatchM_ok {B : Ops K} (hB : B.Ok) {S : Shp} {a r : Mat K} {k : ℕ} (ha : a.WF S) (h2 : 2 ≤ (den a).rank) (hk : k < (den a).bt.length)
    (h : sumBatchM B (den a).rank (k + 2) a = .ok r) : r.WF ((den a).bt.eraseIdx k) ∧ den r = sumAx (k + 2) (den a) := by
  have hl : (den a).rank = (den a).bt.length + 2 := by
    unfold Tensor.rank; conv_lhs => rw [Tensor.sh_eq h2]
    rfl
  have num : ∀ {t v : Tensor K}, t = den a → nSum t (some (posAxis (den a).rank (k + 2))) = .ok v →
      Mat.WF ((den a).bt.eraseIdx k) (.num v) ∧ den (.num v) = sumAx (k + 2) (den a) := by
    intro t v e hv
    subst e
    obtain rfl : v = sumAx (k + 2) (den a) := nSum_pos (n := (den a).rank) (k := k + 2) (q := 0) rfl (by omega) hv
    have hs := sumAx_mat_sh h2 k
    exact ⟨⟨by simp [Tensor.rank, hs], by show Fits _ (List.drop 2 _); rw [hs]; exact Fits.refl _⟩, rfl⟩
  cases a with
  | num t =>
    simp only [sumBatchM, bind_ok_iff, pure_eq_ok] at h
    obtain ⟨v, hv, rfl⟩ := h
    exact num rfl hv
  | dense t =>
    simp only [sumBatchM, bind_ok_iff, pure_eq_ok] at h
    obtain ⟨v, hv, rfl⟩ := h
    exact num rfl hv
  | lt t =>
    simp only [sumBatchM, bind_ok_iff, pure_eq_ok] at h
    obtain ⟨v, hv, rfl⟩ := h
    exact num rfl hv
  | ut t =>
    simp only [sumBatchM, bind_ok_iff, pure_eq_ok] at h
    obtain ⟨v, hv, rfl⟩ := h
    exact num rfl hv
  | zero bt r c =>
    simp only [sumBatchM, Except.ok.injEq] at h
    subst h
    have hk : k < bt.length := hk
    exact ⟨⟨by simp [Tensor.rank], Fits.refl _⟩, (sumAx_fill (s := c :: r :: bt) (k := k + 2) (by simpa using hk)).symm⟩
  | diag d =>
    simp only [sumBatchM, bind_ok_iff, mkDiag_ok] at h
    obtain ⟨v, hv, _, rfl⟩ := h
    have hk' : k < d.sh.tail.length := hk
    have h1 := ha.1
    obtain rfl : v = sumAx (k + 1) d := nSum_pos (q := 1) (by simp [Tensor.rank, den] at h1 ⊢; omega) (by omega) hv
    exact ⟨⟨by simp [Tensor.rank, sumAx_vec_sh h1], by rw [sumAx_vec_sh h1]; exact Fits.refl _⟩, (sumAx_diagC h1 hk').symm⟩
  | const t r c =>
    simp only [sumBatchM, bind_ok_iff] at h
    obtain ⟨v, hv, h⟩ := h
    obtain rfl : v = sumAx k t := nSum_pos (n := (den (.const t r c)).rank) (k := k + 2) (q := 2) rfl (by omega) hv
    obtain ⟨-, rfl⟩ := mkConst_ok h
    have hk : k < t.sh.length := hk
    have e : bsh (sumAx k t).sh [] = (sumAx k t).sh := by simp
    rw [e, bcast_self]
    exact ⟨Fits.refl _, (sumAx_constM hk).symm⟩
  | lr l r m =>
    simp only [sumBatchM, bind_ok_iff, pure_eq_ok] at h
    obtain ⟨t, ht, v, hv, rfl⟩ := h
    exact num (hB.dense ha ht) hv
  | kron l r =>
    simp only [sumBatchM, bind_ok_iff, pure_eq_ok] at h
    obtain ⟨t, ht, v, hv, rfl⟩ := h
    exact num (hB.dense ha ht) hv
  | wb d l r m =>
    simp only [sumBatchM, bind_ok_iff] at h
    obtain ⟨⟨a', b'⟩, hp, h⟩ := h
    obtain ⟨T, eT, gd, gl, wa, wb, ea, eb⟩ := alignBatch2_ok (WF.diagPart ha) (WF.lrPart ha) hp
    dsimp only at h
    split at h
    · rename_i d'
      simp only [bind_ok_iff, mkDiag_ok] at h
      obtain ⟨u, hu, _, ⟨hu1, rfl⟩, y, hy, z, hz, h⟩ := h
      obtain rfl := hB.dense wb hy
      have eb' : (den (.wb d l r m)).bt = T := by rw [eT]; exact zipB_bt
      have hr1 : (den (.diag d)).rows = (den (.lr l r m)).rows := ha.2.2.2.2.1.symm
      have hc1 : (den (.diag d)).cols = (den (.lr l r m)).cols := ha.2.2.2.2.2.symm
      have ed : den (.wb d l r m) = zipB (· + ·) (den (.diag d')) (den b') := by
        rw [ea, eb, ← bbT_zipB _ gd gl hr1 hc1]
        exact (bbT_self' h2 eb').symm
      have d1 : 1 ≤ d'.rank := wa.1
      have ed' : d'.sh.tail = T := by
        have := congrArg Tensor.bt ea; exact this
      rw [eb'] at hk hl ⊢
      have sD := sumAx_vec_sh d1 k
      obtain rfl : u = sumAx (k + 1) d' := nSum_pos (q := 1) (by
        have : d'.sh.tail.length = T.length := by rw [ed']
        simp [Tensor.rank] at d1 this hl ⊢; omega) (by omega) hu
      have gb := wb.good (by rw [eb]; exact bbT_rank _ _)
      obtain rfl : z = sumAx (k + 2) (den b') := nSum_pos (n := (den (.wb d l r m)).rank) (k := k + 2) (q := 0) (by rw [hl, eb]; simp [Tensor.rank]) (by omega) hz
      have sN := sumAx_mat_sh gb.rank k
      have Z := hB.add (S := T.eraseIdx k) (a := .diag (sumAx (k + 1) d')) (b := .num (sumAx (k + 2) (den b'))) ?_ ?_ ?_ h
      · refine ⟨Z.wf, ?_⟩
        rw [Z.eq, ed, sumAx_zip (by show _ < (den (Mat.diag d')).sh.length; rw [ea]; simpa using hk) (by rw [ea, eb, bbT_sh, bbT_sh, hr1, hc1])]
        show zipB _ (diagC _) _ = _
        rw [← sumAx_diagC d1 (by rw [ed']; exact hk)]
        rfl
      · exact ⟨by simp [Tensor.rank, sD], by rw [sD, ed']; exact Fits.refl _⟩
      · exact ⟨by simp [Tensor.rank, sN], by rw [Tensor.bt, sN, eb]; exact Fits.refl _⟩
      · have e1 : (sumAx (k + 1) d').cols = (den (Mat.diag d)).cols := by
          rw [Tensor.cols, sD]; exact congrArg Tensor.cols (a₁ := den (.diag d')) (a₂ := bbT T (den (.diag d))) ea
        have e2 : (sumAx (k + 2) (den b')).rows = (den (.lr l r m)).rows := by rw [Tensor.rows, sN, eb]; rfl
        have e3 : (sumAx (k + 2) (den b')).cols = (den (.lr l r m)).cols := by rw [Tensor.cols, sN, eb]; rfl
        exact noStretch_of_eq (e1.trans (hr1.trans e2.symm)) (e1.trans (hc1.trans e3.symm))
    · simp at h
  | tiled n blk reps axis => simp [sumBatchM] at h

/-! ### `B.sum` and `B.mean` -/

theorem sumFull_all_ok {B : Ops K} (hB : B.Ok) {S : Shp} {a r : Mat K} (ha : a.WF S) (h : sumFull B a none = .ok r) : r = .num (sumAll (den a)) := by
  simp only [sumFull, bind_ok_iff, pure_eq_ok] at h
  obtain ⟨v, hv, rfl⟩ := h
  rw [sumAllM_ok hB ha hv]

/-- The sum over an axis: it is numeric or a valid matrix. -/
theorem sumFull_ax_ok {B : Ops K} (hB : B.Ok) {S : Shp} {a r : Mat K} {ax : Int} (ha : a.WF S) (h2 : 2 ≤ (den a).rank) (h : sumFull B a (some ax) = .ok r) :
    ∃ k, axPos (den a).rank ax = .ok k ∧ den r = sumAx k (den a) ∧ (r.isAM = false ∨ r.Valid) := by
  have er : rankM a = .ok (den a).rank := by simp [rankM, ha.shape, Tensor.rank]
  simp only [sumFull, er, bind_ok_iff, Except.ok.injEq, exists_eq_left'] at h
  obtain ⟨k, hk, h⟩ := h
  refine ⟨k, hk, ?_⟩
  have hlt := axPos_lt hk
  split_ifs at h with h1
  · simp only [bind_ok_iff, pure_eq_ok] at h
    obtain ⟨v, hv, rfl⟩ := h
    exact ⟨hB.sumM (by omega) ha h2 hv, .inl rfl⟩
  · obtain ⟨k, rfl⟩ : ∃ q, k = q + 2 := ⟨k - 2, by omega⟩
    have hl : (den a).rank = (den a).bt.length + 2 := by
      unfold Tensor.rank; conv_lhs => rw [Tensor.sh_eq h2]
      rfl
    obtain ⟨w, e⟩ := sumBatchM_ok hB ha h2 (by omega) h
    exact ⟨e, .inr ⟨_, w⟩⟩

theorem Calls.sumAllM (a : Mat K) : Calls fun B : Ops K => sumAllM B a := by
  intro bad B C h
  cases a <;> simp only [Verif.sumAllM] <;> below
  all_goals first | exact h.matmul _ _ _ _ | exact h.sumM _ _
theorem Calls.sumBatchM (n k : ℕ) (a : Mat K) : Calls fun B : Ops K => sumBatchM B n k a := by
  intro bad B C h
  cases a <;> simp only [Verif.sumBatchM] <;> below
  all_goals first | exact h.dense _ | exact h.add _ _
theorem Calls.sum (a : Mat K) (axis : Option Int) : Calls fun B : Ops K => sumFull B a axis := by
  intro bad B C h
  unfold sumFull
  split
  · exact Below.bind (Calls.sumAllM a _ _ _ h) fun _ => .refl _
  · refine Below.bind (.refl _) fun n => Below.bind (.refl _) fun k => ?_
    split_ifs
    · exact Below.bind (h.sumM _ _) fun _ => .refl _
    · exact Calls.sumBatchM _ _ a _ _ _ h
theorem Calls.mean (env : Env K) (a : Mat K) (axis : Option Int) : Calls fun B : Ops K => meanM env B a axis := by
  intro bad B C h
  unfold meanM
  refine Below.bind (.refl _) fun s => Below.bind (.refl _) fun n => ?_
  exact Below.bind (Calls.sum a axis _ _ _ h) fun x => Calls.divide env _ _ _ _ _ h

/-! ### C12 -/

/-- In a tensor of rank `n`, `axis` names the axis that is `k` places from the last one: axes are numbered from the front from 0,
or from the back from -1. -/
def AxisAt (n : ℕ) (axis : Int) (k : ℕ) : Prop := k < n ∧ (axis = n - 1 - k ∨ axis = -1 - k)

theorem axPos_iff {n k : ℕ} {axis : Int} : axPos n axis = .ok k ↔ AxisAt n axis k := by
  unfold axPos AxisAt
  constructor
  · intro h; split_ifs at h <;> simp at h <;> omega
  · rintro ⟨h1, h2⟩
    split_ifs <;> first | omega | simp
    all_goals omega

theorem axPos_error {n : ℕ} {axis : Int} (h : ∀ k, ¬ AxisAt n axis k) : axPos n axis = .error .value := by
  unfold axPos
  split_ifs <;> try rfl
  · exact absurd (⟨by omega, .inl (by omega)⟩ : AxisAt n axis (n - 1 - axis.toNat)) (h _)
  · exact absurd (⟨by omega, .inr (by omega)⟩ : AxisAt n axis ((-axis).toNat - 1)) (h _)

/-- C12.  `B.sum(a)` is the sum of all entries of `B.dense(a)`. -/
theorem C12_sum_all (c : Cfg K) {a r : Mat K} (ha : a.Valid) (hr : Returns c (fun B => sumFull B a none) r)
    (hx : Exact c fun B => sumFull B a none) : IsSumAll (den a) (den r) := by
  obtain ⟨n, h⟩ := hr.strict hx
  rw [sumFull_all_ok (c.ok n) ha.own h]
  exact IsSumAll.of_eq rfl

/-- C12.  `B.sum(a, axis)` is the sum of `B.dense(a)` over that axis, a matrix axis or a batch axis. -/
theorem C12_sum_axis (c : Cfg K) {a r : Mat K} {axis : Int} (ha : a.Valid) (h2 : 2 ≤ (den a).rank)
    (hr : Returns c (fun B => sumFull B a (some axis)) r) (hx : Exact c fun B => sumFull B a (some axis)) :
    ∃ k, AxisAt (den a).rank axis k ∧ IsSumAxis k (den a) (den r) := by
  obtain ⟨n, h⟩ := hr.strict hx
  obtain ⟨k, hk, e, _⟩ := sumFull_ax_ok (c.ok n) ha.own h2 h
  exact ⟨k, axPos_iff.1 hk, IsSumAxis.of_eq (axPos_lt hk) e⟩

/-- C12.  An axis out of range is rejected with a ValueError. -/
theorem C12_axis_rejected (c : Cfg K) {a : Mat K} {axis : Int} (ha : a.Valid) (h : ∀ k, ¬ AxisAt (den a).rank axis k) :
    Raises c (fun B => sumFull B a (some axis)) .value := by
  obtain ⟨S, ha⟩ := ha
  have er : rankM a = .ok (den a).rank := by simp [rankM, ha.shape, Tensor.rank]
  refine ⟨by decide, 0, ?_⟩
  simp only [sumFull, er]
  show (axPos _ _ >>= _) = _
  rw [axPos_error h]; rfl

theorem div_scalar_ok {env : Env K} {B : Ops K} (hB : B.Ok) {x r : Mat K} {n : ℕ} (hx : x.isAM = false ∨ x.Valid)
    (h : divideM env B x (.num (scalarT (n : K))) = .ok r) : IsMap (· / (n : K)) (den x) (den r) := by
  have key : ∀ {u : Tensor K}, u = zipB (· / ·) (den x) (scalarT (n : K)) → IsMap (· / (n : K)) (den x) u := by
    rintro u rfl
    have e : (zipB (· / ·) (den x) (scalarT (n : K))).sh = (den x).sh := by simp [zipB_sh]
    refine ⟨e, fun i hi => ?_⟩
    rw [e] at hi
    rw [zipB_get _ hi (Fits.refl _) (Fits.nil _)]
    congr 1
  rcases hx with hx | ⟨S, hx⟩
  · obtain ⟨t, rfl⟩ : ∃ t, x = .num t := by cases x <;> simp_all [Mat.isAM]
    simp only [divideM, bind_ok_iff, pure_eq_ok] at h
    obtain ⟨_, h1, rfl⟩ := h
    exact key (nDiv_ok h1).2.2
  · refine key (divideM_ok (b := .num (scalarT (n : K))) hB hx ⟨by simp [Tensor.rank, scalarT], Fits.nil _⟩ ?_ h).1.eq
    exact ⟨fun _ => ⟨.inl rfl, .inl rfl⟩, fun h => by simp [Mat.rigid] at h⟩

/-- C12.  `B.mean(a)` is the mean of all entries. -/
theorem C12_mean_all (c : Cfg K) {a r : Mat K} (ha : a.Valid) (hr : Returns c (fun B => meanM c.code B a none) r)
    (hx : Exact c fun B => meanM c.code B a none) :
    ∃ s, IsSumAll (den a) s ∧ IsMap (· / (size (den a).sh : K)) s (den r) := by
  obtain ⟨n, h⟩ := hr.strict hx
  simp only [meanM, ha.own.shape, bind_ok_iff, Except.ok.injEq, exists_eq_left'] at h
  obtain ⟨s, hs, h⟩ := h
  obtain rfl := sumFull_all_ok (c.ok n) ha.own hs
  exact ⟨_, IsSumAll.of_eq rfl, div_scalar_ok (c.ok n) (.inl rfl) h⟩

/-- C12.  `B.mean(a, axis)` is the sum over that axis divided by its size. -/
theorem C12_mean_axis (c : Cfg K) {a r : Mat K} {axis : Int} (ha : a.Valid) (h2 : 2 ≤ (den a).rank)
    (hr : Returns c (fun B => meanM c.code B a (some axis)) r) (hx : Exact c fun B => meanM c.code B a (some axis)) :
    ∃ k s, AxisAt (den a).rank axis k ∧ IsSumAxis k (den a) s ∧ IsMap (· / (dim (den a).sh k : K)) s (den r) := by
  obtain ⟨n, h⟩ := hr.strict hx
  simp only [meanM, ha.own.shape, bind_ok_iff, Except.ok.injEq, exists_eq_left', pure_eq_ok] at h
  obtain ⟨_, ⟨k, hk, rfl⟩, s, hs, h⟩ := h
  obtain ⟨k', hk', e, hv⟩ := sumFull_ax_ok (c.ok n) ha.own h2 hs
  obtain rfl : k = k' := by
    have : axPos (den a).rank axis = .ok k := hk
    rw [hk'] at this; cases this; rfl
  exact ⟨k, _, axPos_iff.1 hk, IsSumAxis.of_eq (axPos_lt hk) e, div_scalar_ok (c.ok n) hv h⟩

/-- The hypotheses are met, for a batch axis of a Woodbury matrix with a batch of diagonals. -/
example : ∃ r, Returns Ex.cfg (fun B => sumFull B (.wb (Ex.bv 2 2 [5, 7, 11, 13]) (.num (Ex.m 2 1 [1, 2])) (.num (Ex.m 2 1 [3, 4])) (.num (Ex.m 1 1 [2]))) (some 0)) r ∧ Exact Ex.cfg fun B => sumFull B (.wb (Ex.bv 2 2 [5, 7, 11, 13]) (.num (Ex.m 2 1 [1, 2])) (.num (Ex.m 2 1 [3, 4])) (.num (Ex.m 1 1 [2]))) (some 0) :=
  Ex.meets (Calls.sum _ _) (n := 8) (by decide +kernel)
example : ∃ r, Returns Ex.cfg (fun B => meanM Ex.cfg.code B (.kron Ex.W Ex.R) none) r ∧ Exact Ex.cfg fun B => meanM Ex.cfg.code B (.kron Ex.W Ex.R) none :=
  Ex.meets (Calls.mean _ _ _) (n := 8) (by decide +kernel)
example : ∃ r, Returns Ex.cfg (fun B => meanM Ex.cfg.code B Ex.Db (some (-3))) r ∧ Exact Ex.cfg fun B => meanM Ex.cfg.code B Ex.Db (some (-3)) :=
  Ex.meets (Calls.mean _ _ _) (n := 8) (by decide +kernel)

end Verif
