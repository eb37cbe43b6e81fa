/-
The derived functions succeed (C53): on supported matrices, subtraction, division, traces, element-wise functions, sums, means, reshaping, tiling and concatenation return what
they should.
-/
import Verif.QuietDer
import Verif.LinReal

set_option linter.unusedSectionVars false

namespace Verif

variable {K : Type} [Field K] [LinearOrder K] [IsStrictOrderedRing K]

/-! ### Nothing is raised (continued) -/

theorem tileM_calm {S : Shp} {B : Ops K} (hF : B.Fine S) {a : Mat K} {reps : List ℕ} (ha : a.WF S) (fa : a.fit true) (hr : (den a).rank = reps.length) : Calm (tileM B a reps) := by
  cases a with
  | num t => exact Calm.ok
  | zero bt r c => exact Calm.step (v := ()) (guardE_ok.2 (by simpa [den, Tensor.rank] using hr)) Calm.ok
  | const t r c => exact Calm.step (v := ()) (guardE_ok.2 (by simpa [den, Tensor.rank] using hr)) Calm.ok
  | tiled => exact fa.elim
  | _ => exact Calm.bind (hF.dense ha fa) fun _ _ => Calm.pure

theorem reshapeM_calm {S : Shp} {B : Ops K} (hB : B.Ok) (hF : B.Fine S) {a : Mat K} {s : Shp} (ha : a.WF S) (fa : a.fit true) (hs : size s = size (den a).sh) : Calm (reshapeM B a s) := by
  refine Calm.bind (hF.dense ha fa) fun x hx => ?_
  obtain rfl := hB.dense ha hx
  unfold nReshape
  rw [if_pos hs]
  exact Calm.ok

theorem Calm.mapM {α β : Type} {f : α → E β} {l : List α} (h : ∀ a ∈ l, Calm (f a)) : Calm (l.mapM f) := by
  induction l with
  | nil => exact Calm.pure
  | cons a l ih =>
    rw [List.mapM_cons]
    exact Calm.bind (h a (by simp)) fun _ _ => Calm.bind (ih fun b hb => h b (by simp [hb])) fun _ _ => Calm.pure

theorem mapM_den {B : Ops K} (hB : B.Ok) {l : List (Mat K)} {ds : List (Tensor K)} (hv : ∀ a ∈ l, a.Valid) (h : l.mapM B.dense = .ok ds) : ds = l.map den := by
  induction l generalizing ds with
  | nil => cases h; rfl
  | cons a l ih =>
    rw [List.mapM_cons] at h
    simp only [bind_ok_iff, pure_eq_ok] at h
    obtain ⟨x, hx, xs, hxs, rfl⟩ := h
    rw [hB.dense (hv a (by simp)).own hx, ih (fun b hb => hv b (by simp [hb])) hxs]
    rfl

theorem stored_true (a : Mat K) : a.Stored fun _ => True := by
  induction a with
  | kron l r ihl ihr => exact ⟨ihl, ihr⟩
  | zero => trivial
  | tiled => trivial
  | _ => exact fun _ _ => trivial

theorem nConcat_calm {axis : Int} {k : ℕ} {ts : List (Tensor K)} (h0 : ts ≠ []) (hk : ∀ t ∈ ts, AxisAt t.rank axis k) (hs : ∀ t ∈ ts, ∀ u ∈ ts, AgreeExcept k t.sh u.sh) :
    Calm (nConcat axis ts) := by
  cases ts with
  | nil => exact absurd rfl h0
  | cons t ts =>
    have ht := hk t (by simp)
    have hlt : k < t.rank := ht.1
    refine Calm.step (axPos_iff.2 ht) (Calm.step (v := ()) (guardE_ok.2 fun u hu => ?_) Calm.pure)
    exact (hs u hu t (by simp)).set_eq ((hk u hu).1)

theorem concatM_calm {B : Ops K} (hB : B.Ok) (hF : ∀ S, 0 ∉ S → B.Fine S) {as : List (Mat K)} {axis : Int} {k : ℕ} (h0 : as ≠ []) (hv : ∀ a ∈ as, a.Supported)
    (hu : (∀ a ∈ as, a.isAM = true) ∨ ∀ a ∈ as, a.isAM = false)
    (hk : ∀ a ∈ as, AxisAt (den a).rank axis k) (hs : ∀ a ∈ as, ∀ b ∈ as, AgreeExcept k (den a).sh (den b).sh) : Calm (concatM B as axis) := by
  have cc : Calm (nConcat axis (as.map den)) := by
    refine nConcat_calm (k := k) (by simpa using h0) ?_ ?_
    · intro t ht
      obtain ⟨a, ha, rfl⟩ := List.mem_map.1 ht
      exact hk a ha
    · intro t ht u hu
      obtain ⟨a, ha, rfl⟩ := List.mem_map.1 ht
      obtain ⟨b, hb, rfl⟩ := List.mem_map.1 hu
      exact hs a ha b hb
  unfold concatM
  refine Calm.ite (fun _ => Calm.bind cc fun _ _ => Calm.pure) fun hn => Calm.ite (fun h => ?_) fun _ => ?_
  · rcases hu with hu | hu
    · exact absurd h (by simpa using hu)
    · exact absurd (by simpa using hu) hn
  · have hnone : as.mapM (tiledParts (K := K) axis) = none := by
      cases as with
      | nil => exact absurd rfl h0
      | cons a as =>
        have : tiledParts axis a = none := by
          have := (hv a (by simp)).fit
          cases a <;> first | rfl | exact this.elim
        rw [List.mapM_cons, this]; rfl
    rw [hnone]
    refine Calm.bind (Calm.mapM fun a ha => ?_) fun ds hds => ?_
    · have hw := (hv a ha).valid.own
      exact (hF _ (hv a ha).batch).dense hw (hv a ha).fit
    · have : ds = as.map den := mapM_den hB (fun a ha => (hv a ha).valid) hds
      rw [this]
      exact Calm.bind cc fun _ _ => Calm.pure

/-! ### C53 -/

variable (c : Cfg K)

theorem Cfg.fineAll (n : ℕ) : ∀ S, 0 ∉ S → (ops c.strict n).Fine S := fun _ h0 => c.fine h0 n

/-- C53.  The difference of two supported matrices whose shapes broadcast (without stretching a rigid one) is returned, and it is the difference. -/
theorem C53_subtract {a b : Mat K} (ha : a.Supported) (hb : b.Supported) (hc : Compat (den a).sh (den b).sh) (hs : NoStretch a b)
    (hx : Exact c fun B => subtractM c.code B a b) : ∃ r, Returns c (fun B => subtractM c.code B a b) r ∧ r.Valid ∧ IsEltwise (· - ·) (den a) (den b) (den r) := by
  obtain ⟨wa, wb⟩ := ha.valid.common hb.valid (compat_bt hc)
  obtain ⟨r, h⟩ := (C35_subtract c a b).returns hx fun n => subtractM_calm (c.fine (zero_bsh ha.batch hb.batch) n) wa wb ha.fit hb.fit hs hc
  exact ⟨r, h, C07_subtract c ha.valid hb.valid (compat_bt hc) hs h hx⟩

/-- C53.  With every tolerance, unless both are low-rank matrices or one is and the other is constant. -/
theorem C53_subtract_always {a b : Mat K} (ha : a.Supported) (hb : b.Supported) (wa : a.wo true) (wb : b.wo true) (hc : Compat (den a).sh (den b).sh) (hs : NoStretch a b)
    (hl : lowSum (classOf c a) (classOf c b) = false) : ∃ r, Returns c (fun B => subtractM c.code B a b) r ∧ r.Valid ∧ IsEltwise (· - ·) (den a) (den b) (den r) :=
  C53_subtract c ha hb hc hs (C46_subtract c wa wb hb.valid hl).2

/-- C53.  So is the quotient, if no entry of the divisor is zero; a Constant divisor must not be empty. -/
theorem C53_divide {a b : Mat K} (ha : a.Supported) (hb : b.Supported) (wa : a.wo true) (wb : b.wo true) (hc : Compat (den a).sh (den b).sh) (hs : NoStretch a b)
    (h0 : ∀ i, InRange (den b).sh i → (den b).get i ≠ 0) (hn : ∀ t r k, b = .const t r k → 0 < r ∧ 0 < k) :
    ∃ r, Returns c (fun B => divideM c.code B a b) r ∧ r.Valid ∧ IsEltwise (· / ·) (den a) (den b) (den r) := by
  have hx := (C46_divide c wa wb).2
  obtain ⟨va, vb⟩ := ha.valid.common hb.valid (compat_bt hc)
  obtain ⟨r, h⟩ := (C35_divide c a b).returns hx fun n => divideM_calm (c.ok n) (c.fine (zero_bsh ha.batch hb.batch) n) va vb ha.fit hb.fit hs hc h0 hn
  obtain ⟨h1, h2, _⟩ := C07_divide c ha.valid hb.valid (compat_bt hc) hs h hx
  exact ⟨r, h, h1, h2⟩

/-- C53.  So is the trace, unless a batched array is a factor of a Kronecker product (`DiagDef`) or the right factor of one is not square (`DiagOk`). -/
theorem C53_trace {a : Mat K} (ha : a.Supported) (wa : a.wo true) (h2 : 2 ≤ (den a).rank) (hd : a.DiagDef (den a).bt) (ho : a.DiagOk) :
    ∃ t, Returns c (fun B => traceM B a) t ∧ IsTrace (den a) t := by
  have hx := (C46_trace c wa).2
  obtain ⟨r, h⟩ := (C35_trace c a).returns hx fun n => traceM_calm (c.ok n) (c.fine ha.batch n) ha.valid.own ha.fit h2 hd ho
  exact ⟨r, h, C11_trace c ha.valid h2 ho h hx⟩

/-- C53.  Absolute values of a supported matrix are returned. -/
theorem C53_abs {a : Mat K} (ha : a.Supported) (wa : a.wo true) : ∃ r, Returns c (fun B => absM B a) r ∧ r.Valid ∧ IsMap (fun x => |x|) (den a) (den r) := by
  have hx := (C46_abs c wa).2
  obtain ⟨r, h⟩ := (C35_abs c a).returns hx fun n => eltM_calm (P := fun _ => True) (c.ok n) (c.fine ha.batch n) (fun _ _ => Calm.ok) (fun t u h => by cases h; rfl) ha.valid.own ha.fit
    (stored_true a)
  exact ⟨r, h, C34_abs c ha.valid h hx⟩

/-- C53.  Square roots are returned if the backend has square roots and the stored entries are not negative. -/
theorem C53_sqrt {lin : LinEnv K} (hl : lin.Lawful) (hc : lin.Complete) {a : Mat K} (ha : a.Supported) (wa : a.wo true) (hp : a.Stored (0 ≤ ·)) :
    ∃ r, Returns c (fun B => sqrtM lin B a) r ∧ r.Valid ∧ IsRel (fun x y => 0 ≤ y ∧ y * y = x) (den a) (den r) := by
  have hx := (C46_sqrt c lin wa).2
  obtain ⟨r, h⟩ := (C35_sqrt c a).returns hx fun n => eltM_calm (P := (0 ≤ ·)) (c.ok n) (c.fine ha.batch n) (fun t ht => nSqrt_calm hc ht) (fun t u h => (nSqrt_rel hl h).shape) ha.valid.own ha.fit hp
  exact ⟨r, h, C34_sqrt c hl ha.valid h hx⟩

/-- C53.  Positive integer powers are returned. -/
theorem C53_power {k : ℤ} (hk : 1 ≤ k) {a : Mat K} (ha : a.Supported) (wa : a.wo true) :
    ∃ r, Returns c (fun B => powerM k B a) r ∧ r.Valid ∧ IsMap (fun x => x ^ k) (den a) (den r) := by
  have hx := (C46_power c k wa).2
  obtain ⟨r, h⟩ := (C35_power c k a).returns hx fun n => eltM_calm (P := fun _ => True) (c.ok n) (c.fine ha.batch n)
    (fun t _ => by unfold nPow; rw [if_neg (fun h => by omega)]; exact Calm.ok) (fun t u h => (nPow_ok h).shape) ha.valid.own ha.fit (stored_true a)
  exact ⟨r, h, C34_power c ha.valid (Or.inl hk) h hx⟩

/-- C53.  All integer powers are returned if no entry is zero. -/
theorem C53_power_neg {k : ℤ} {a : Mat K} (ha : a.Supported) (wa : a.wo true) (he : a.explicit = true) (hp : a.Stored (· ≠ 0)) :
    ∃ r, Returns c (fun B => powerM k B a) r ∧ r.Valid ∧ IsMap (fun x => x ^ k) (den a) (den r) := by
  have hx := (C46_power c k wa).2
  obtain ⟨r, h⟩ := (C35_power c k a).returns hx fun n => eltM_calm (P := (· ≠ 0)) (c.ok n) (c.fine ha.batch n)
    (fun t ht => by
      unfold nPow
      rw [if_neg]
      · exact Calm.ok
      · rintro ⟨_, j, hj, e⟩
        exact ht _ (inRange_unlin hj) e) (fun t u h => (nPow_ok h).shape) ha.valid.own ha.fit hp
  exact ⟨r, h, C34_power c ha.valid (Or.inr he) h hx⟩

/-- C53.  The sum of all entries is returned. -/
theorem C53_sum_all {a : Mat K} (ha : a.Supported) (wa : a.wo true) (h2 : 2 ≤ (den a).rank) : ∃ r, Returns c (fun B => sumFull B a none) r ∧ IsSumAll (den a) (den r) := by
  have hx := (C46_sum_axis c none wa).2
  obtain ⟨r, h⟩ := (C35_sum_axis c a none).returns hx fun n =>
    sumFull_calm (c.ok n) (ops_keeps _ n) (c.fineAll n) ha.batch ha.valid.own ha.fit h2 ha.batch fun _ h => by cases h
  exact ⟨r, h, C12_sum_all c ha.valid h hx⟩

/-- C53.  So is the sum along any axis the matrix has, a batch axis included. -/
theorem C53_sum_axis {a : Mat K} {axis : Int} {k : ℕ} (ha : a.Supported) (wa : a.wo true) (h2 : 2 ≤ (den a).rank) (hk : AxisAt (den a).rank axis k) :
    ∃ r, Returns c (fun B => sumFull B a (some axis)) r ∧ IsSumAxis k (den a) (den r) := by
  have hx := (C46_sum_axis c (some axis) wa).2
  obtain ⟨r, h⟩ := (C35_sum_axis c a (some axis)).returns hx fun n =>
    sumFull_calm (c.ok n) (ops_keeps _ n) (c.fineAll n) ha.batch ha.valid.own ha.fit h2 ha.batch fun _ h => by cases h; exact ⟨k, hk⟩
  obtain ⟨k', hk', hs⟩ := C12_sum_axis c ha.valid h2 h hx
  obtain rfl : k' = k := by
    have := (axPos_iff.2 hk').symm.trans (axPos_iff.2 hk)
    simpa using this
  exact ⟨r, h, hs⟩

/-- C53.  The mean of all entries of a matrix that is not empty is returned. -/
theorem C53_mean_all {a : Mat K} (ha : a.Supported) (wa : a.wo true) (h2 : 2 ≤ (den a).rank) (he : 0 ∉ (den a).sh) :
    ∃ r s, Returns c (fun B => meanM c.code B a none) r ∧ IsSumAll (den a) s ∧ IsMap (· / (size (den a).sh : K)) s (den r) := by
  have hx := (C46_mean c none wa).2
  obtain ⟨r, h⟩ := (C35_mean c a none).returns hx fun n =>
    meanM_calm (c.ok n) (ops_keeps _ n) (c.fineAll n) ha.batch ha.valid.own ha.fit h2 he fun _ h => by cases h
  obtain ⟨s, h1, h2⟩ := C12_mean_all c ha.valid h hx
  exact ⟨r, s, h, h1, h2⟩

/-- C53.  So is the mean along any axis. -/
theorem C53_mean_axis {a : Mat K} {axis : Int} {k : ℕ} (ha : a.Supported) (wa : a.wo true) (h2 : 2 ≤ (den a).rank) (he : 0 ∉ (den a).sh) (hk : AxisAt (den a).rank axis k) :
    ∃ r s, Returns c (fun B => meanM c.code B a (some axis)) r ∧ IsSumAxis k (den a) s ∧ IsMap (· / (dim (den a).sh k : K)) s (den r) := by
  have hx := (C46_mean c (some axis) wa).2
  obtain ⟨r, h⟩ := (C35_mean c a (some axis)).returns hx fun n =>
    meanM_calm (c.ok n) (ops_keeps _ n) (c.fineAll n) ha.batch ha.valid.own ha.fit h2 he fun _ h => by cases h; exact ⟨k, hk⟩
  obtain ⟨k', s, hk', h1, h2⟩ := C12_mean_axis c ha.valid h2 h hx
  obtain rfl : k' = k := by
    have := (axPos_iff.2 hk').symm.trans (axPos_iff.2 hk)
    simpa using this
  exact ⟨r, s, h, h1, h2⟩

/-- C53.  Reshaping to a shape with as many entries succeeds. -/
theorem C53_reshape {a : Mat K} {s : Shp} (ha : a.Supported) (wa : a.wo true) (hs : size s = size (den a).sh) :
    ∃ r, Returns c (fun B => reshapeM B a s) r ∧ IsReshape s (den a) r := by
  have hx := (C46_reshape c s wa).2
  obtain ⟨r, h⟩ := (C35_reshape c a s).returns hx fun n => reshapeM_calm (c.ok n) (c.fine ha.batch n) ha.valid.own ha.fit hs
  exact ⟨r, h, C17_reshape c ha.valid h hx⟩

/-- C53.  Tiling with one repetition per axis succeeds. -/
theorem C53_tile {a : Mat K} {reps : List ℕ} (ha : a.Supported) (wa : a.wo true) (h2 : 2 ≤ (den a).rank) (hr : (den a).rank = reps.length) :
    ∃ r, Returns c (fun B => tileM B a reps) r ∧ r.Valid ∧ IsTile reps (den a) (den r) := by
  have hx := (C46_tile c reps wa).2
  obtain ⟨r, h⟩ := (C35_tile c a reps).returns hx fun n => tileM_calm (c.fine ha.batch n) ha.valid.own ha.fit hr
  exact ⟨r, h, C17_tile c ha.valid h2 h hx⟩

/-- C53.  Concatenation of matrices whose shapes agree except along the axis succeeds. -/
theorem C53_concat {as : List (Mat K)} {axis : Int} {k : ℕ} (h0 : as ≠ []) (hv : ∀ a ∈ as, a.Supported) (hw : ∀ a ∈ as, a.wo true) (h2 : ∀ a ∈ as, 2 ≤ (den a).rank)
    (hu : (∀ a ∈ as, a.isAM = true) ∨ ∀ a ∈ as, a.isAM = false)
    (hk : ∀ a ∈ as, AxisAt (den a).rank axis k) (hs : ∀ a ∈ as, ∀ b ∈ as, AgreeExcept k (den a).sh (den b).sh) :
    ∃ r, Returns c (fun B => concatM B as axis) r ∧ r.Valid ∧ IsConcat k (as.map den) (den r) := by
  have hx := (C46_concat c axis hw).2
  obtain ⟨r, h⟩ := (C35_concat c as axis).returns hx fun n => concatM_calm (c.ok n) (c.fineAll n) h0 hv hu hk hs
  exact ⟨r, h, C17_concat c (fun a ha => (hv a ha).valid) h2 hk hs h hx⟩

/-! ### The hypotheses are met -/

/-- A batch of two Woodbury matrices that share the low-rank part. -/
def Ex.Wb : Mat ℚ := .wb (Ex.bv 2 2 [5, 7, 11, 13]) (.num (Ex.m 2 1 [1, 2])) (.num (Ex.m 2 1 [3, 4])) (.num (Ex.m 1 1 [2]))

theorem Ex.Wb_supported : Ex.Wb.Supported :=
  ⟨⟨[2], ⟨by decide, Fits.refl _⟩, ⟨Ex.num_wf _ _ _ _, Ex.num_wf _ _ _ _, Ex.num_wf _ _ _ _⟩, ⟨le_refl _, le_refl _, le_refl _⟩, ⟨rfl, rfl⟩, rfl, rfl⟩, ⟨trivial, trivial, trivial⟩,
    by decide +kernel⟩
theorem Ex.Wb_wo : Ex.Wb.wo true := ⟨rfl, trivial, trivial, trivial⟩
theorem Ex.W_wo : Ex.W.wo true := ⟨rfl, trivial, trivial, trivial⟩
theorem Ex.L_supported : Ex.L.Supported := Ex.supported (Ex.L_wf _) trivial rfl

example : ∃ r, Returns Ex.cfg (fun B => subtractM Ex.cfg.code B Ex.Wb Ex.L) r ∧ r.Valid ∧ IsEltwise (· - ·) (den Ex.Wb) (den Ex.L) (den r) :=
  C53_subtract_always _ Ex.Wb_supported Ex.L_supported Ex.Wb_wo trivial (by decide +kernel) ⟨fun _ => ⟨by decide +kernel, by decide +kernel⟩, fun _ => ⟨by decide +kernel, by decide +kernel⟩⟩
    (by decide +kernel)
example : ∃ r, Returns Ex.cfg (fun B => divideM Ex.cfg.code B Ex.Wb Ex.C) r ∧ r.Valid ∧ IsEltwise (· / ·) (den Ex.Wb) (den Ex.C) (den r) :=
  C53_divide _ Ex.Wb_supported (Ex.supported (Ex.C_wf _) trivial rfl) Ex.Wb_wo trivial (by decide +kernel) ⟨fun _ => ⟨by decide +kernel, by decide +kernel⟩, fun _ => ⟨by decide +kernel, by decide +kernel⟩⟩
    (fun i hi => by rw [show den Ex.C = constM (scalarT 3) 2 2 from rfl, constM_get hi]; exact (by decide +kernel : (3 : ℚ) ≠ 0)) (fun t r k h => by cases h; decide)
example : ∃ t, Returns Ex.cfg (fun B => traceM B Ex.Wb) t ∧ IsTrace (den Ex.Wb) t := C53_trace _ Ex.Wb_supported Ex.Wb_wo (by decide +kernel) trivial trivial
example : ∃ r, Returns Ex.cfg (fun B => absM B (.kron Ex.W Ex.R)) r ∧ r.Valid ∧ IsMap (fun x => |x|) (den (.kron Ex.W Ex.R)) (den r) :=
  C53_abs _ Ex.KW_supported ⟨Ex.W_wo, ⟨trivial, trivial, trivial⟩⟩
example : ∃ r, Returns Ex.cfg (fun B => powerM 3 B Ex.L) r ∧ r.Valid ∧ IsMap (fun x => x ^ (3 : ℤ)) (den Ex.L) (den r) := C53_power _ (by decide) Ex.L_supported trivial
example : ∃ r, Returns Ex.cfg (fun B => powerM (-2) B Ex.C) r ∧ r.Valid ∧ IsMap (fun x => x ^ (-2 : ℤ)) (den Ex.C) (den r) :=
  C53_power_neg _ (Ex.supported (Ex.C_wf _) trivial rfl) trivial rfl fun _ _ => (by decide +kernel : (3 : ℚ) ≠ 0)
/- The square root of a diagonal matrix over the reals. -/
example : ∃ r, Returns ⟨fun _ => true, 0⟩ (fun B => sqrtM realLin B (.diag (ofFn [2] fun i => (i 0 : ℝ)))) r ∧ r.Valid ∧
    IsRel (fun x y => 0 ≤ y ∧ y * y = x) (den (.diag (ofFn [2] fun i => (i 0 : ℝ)))) (den r) :=
  C53_sqrt _ realLin_lawful realLin_complete ⟨⟨[], by simp [Tensor.rank], Fits.nil _⟩, trivial, by simp [den, Tensor.bt]⟩ trivial
    (fun i hi => by
      show (0 : ℝ) ≤ _
      rw [ofFn_get (s := [2]) _ hi]; exact Nat.cast_nonneg _)
/- The sum along the batch axis, by its positive and by its negative name. -/
example : ∃ r, Returns Ex.cfg (fun B => sumFull B Ex.Wb (some 0)) r ∧ IsSumAxis 2 (den Ex.Wb) (den r) :=
  C53_sum_axis _ Ex.Wb_supported Ex.Wb_wo (by decide +kernel) ⟨by decide +kernel, by decide +kernel⟩
example : ∃ r, Returns Ex.cfg (fun B => sumFull B Ex.Wb (some (-3))) r ∧ IsSumAxis 2 (den Ex.Wb) (den r) :=
  C53_sum_axis _ Ex.Wb_supported Ex.Wb_wo (by decide +kernel) ⟨by decide +kernel, by decide +kernel⟩
example : ∃ r, Returns Ex.cfg (fun B => sumFull B Ex.Wb none) r ∧ IsSumAll (den Ex.Wb) (den r) := C53_sum_all _ Ex.Wb_supported Ex.Wb_wo (by decide +kernel)
example : ∃ r s, Returns Ex.cfg (fun B => meanM Ex.cfg.code B Ex.Wb (some 0)) r ∧ IsSumAxis 2 (den Ex.Wb) s ∧ IsMap (· / (2 : ℚ)) s (den r) :=
  C53_mean_axis _ Ex.Wb_supported Ex.Wb_wo (by decide +kernel) (by decide +kernel) (k := 2) ⟨by decide +kernel, by decide +kernel⟩
example : ∃ r s, Returns Ex.cfg (fun B => meanM Ex.cfg.code B Ex.Wb none) r ∧ IsSumAll (den Ex.Wb) s ∧ IsMap (· / (8 : ℚ)) s (den r) :=
  C53_mean_all _ Ex.Wb_supported Ex.Wb_wo (by decide +kernel) (by decide +kernel)
example : ∃ r, Returns Ex.cfg (fun B => reshapeM B Ex.Wb [4, 2]) r ∧ IsReshape [4, 2] (den Ex.Wb) r := C53_reshape _ Ex.Wb_supported Ex.Wb_wo (by decide +kernel)
example : ∃ r, Returns Ex.cfg (fun B => tileM B Ex.Wb [1, 2, 3]) r ∧ r.Valid ∧ IsTile [1, 2, 3] (den Ex.Wb) (den r) :=
  C53_tile _ Ex.Wb_supported Ex.Wb_wo (by decide +kernel) (by decide +kernel)
example : ∃ r, Returns Ex.cfg (fun B => concatM B [Ex.W, Ex.L] (-2)) r ∧ r.Valid ∧ IsConcat 1 [den Ex.W, den Ex.L] (den r) :=
  C53_concat _ (as := [Ex.W, Ex.L]) (by simp) (by simpa using ⟨Ex.W_supported, Ex.L_supported⟩) (by simpa using ⟨Ex.W_wo, (trivial : Ex.L.wo true)⟩) (by decide +kernel) (Or.inl (by decide +kernel))
    (by simpa using ⟨(⟨by decide +kernel, by decide +kernel⟩ : AxisAt (den Ex.W).rank (-2) 1), (⟨by decide +kernel, by decide +kernel⟩ : AxisAt (den Ex.L).rank (-2) 1)⟩)
    (fun a ha b hb => by
      have e : ∀ a ∈ [Ex.W, Ex.L], (den a).sh = [2, 2] := by simpa using ⟨(by decide +kernel : (den Ex.W).sh = [2, 2]), (by decide +kernel : (den Ex.L).sh = [2, 2])⟩
      rw [e a ha, e b hb]; exact ⟨rfl, fun _ _ => rfl⟩)

end Verif
