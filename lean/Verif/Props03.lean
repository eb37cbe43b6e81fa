/-
Negation, subtraction, division, trace.
-/
import Verif.OpsNeg
import Verif.Props02

set_option linter.unusedSectionVars false

namespace Verif

variable {K : Type} [Field K] [LinearOrder K]

/-! ### C07 -/

/-- C07.  Negation of a well-formed matrix without TiledBlocks returns, keeps the class and negates every entry. -/
theorem C07_negative {a : Mat K} (ha : a.Valid) (hn : a.noTiled = true) :
    ∃ r, negativeM a = .ok r ∧ r.Valid ∧ r.kind = a.kind ∧ IsMap (fun x => -x) (den a) (den r) := by
  obtain ⟨r, h⟩ := negativeM_total ha.own hn
  obtain ⟨w, e, k⟩ := negativeM_ok ha.own h
  exact ⟨r, h, ⟨_, w⟩, k, IsMap.of_eq e⟩

/-- C07.  Subtraction agrees with dense subtraction. -/
theorem C07_subtract (c : Cfg K) {a b r : Mat K} (ha : a.Valid) (hb : b.Valid) (hc : BatchCompat a b) (hs : NoStretch a b)
    (hr : Returns c (fun B => subtractM c.code B a b) r) (hx : Exact c fun B => subtractM c.code B a b) :
    r.Valid ∧ IsEltwise (· - ·) (den a) (den b) (den r) := by
  obtain ⟨n, h⟩ := hr.strict hx
  obtain ⟨wa, wb⟩ := ha.common hb hc
  have := subtractM_ok (c.ok n) wa wb hs h
  exact ⟨⟨_, this.wf⟩, IsEltwise.of_eq this.compat this.eq⟩

/-- C07.  Division agrees with dense division; it returns only when no entry of the divisor is 0. -/
theorem C07_divide (c : Cfg K) {a b r : Mat K} (ha : a.Valid) (hb : b.Valid) (hc : BatchCompat a b) (hs : NoStretch a b)
    (hr : Returns c (fun B => divideM c.code B a b) r) (hx : Exact c fun B => divideM c.code B a b) :
    r.Valid ∧ IsEltwise (· / ·) (den a) (den b) (den r) ∧ ∀ i, InRange (den b).sh i → (den b).get i ≠ 0 := by
  obtain ⟨n, h⟩ := hr.strict hx
  obtain ⟨wa, wb⟩ := ha.common hb hc
  obtain ⟨this, h0⟩ := divideM_ok (c.ok n) wa wb hs h
  exact ⟨⟨_, this.wf⟩, IsEltwise.of_eq this.compat this.eq, h0⟩

/-- C07.  `a / x` for a scalar `x` divides every entry. -/
theorem C07_divide_scalar (c : Cfg K) {a r : Mat K} (x : K) (ha : a.Valid)
    (hr : Returns c (fun B => divideM c.code B a (.num (scalarT x))) r) (hx : Exact c fun B => divideM c.code B a (.num (scalarT x))) :
    r.Valid ∧ x ≠ 0 ∧ IsMap (fun y => y / x) (den a) (den r) := by
  have hs : (Mat.num (scalarT x)).WF (den a).bt := ⟨by simp [Tensor.rank], Fits.nil _⟩
  have hn : NoStretch a (.num (scalarT x)) := ⟨fun _ => ⟨Or.inl rfl, Or.inl rfl⟩, fun h => by simp [Mat.rigid] at h⟩
  obtain ⟨v, h, h0⟩ := C07_divide c ha ⟨_, hs⟩ (ha.own.batchCompat hs) hn hr hx
  refine ⟨v, ?_, ?_, fun i hi => ?_⟩
  · simpa [den] using h0 (fun _ => 0) (fun k => by simp [den, scalarT, dim])
  · rw [h.shape]; simp [den]
  · rw [h.entries i hi]; simp [den]

example : Ex.W.Valid ∧ Ex.W.noTiled = true := ⟨⟨[], Ex.W_wf _⟩, rfl⟩
example : ∃ r, Returns Ex.cfg (fun B => subtractM Ex.cfg.code B Ex.W Ex.R') r ∧ Exact Ex.cfg fun B => subtractM Ex.cfg.code B Ex.W Ex.R' :=
  Ex.meets (Calls.subtract _ _ _) (n := 8) (by decide +kernel)
example : Ex.W.Valid ∧ Ex.R'.Valid ∧ BatchCompat Ex.W Ex.R' ∧ NoStretch Ex.W Ex.R' :=
  ⟨⟨[], Ex.W_wf _⟩, ⟨[], Ex.R'_wf _⟩, (Ex.W_wf []).batchCompat (Ex.R'_wf []), noStretch_of_eq rfl rfl⟩
example : ∃ r, Returns Ex.cfg (fun B => divideM Ex.cfg.code B Ex.W Ex.s) r ∧ Exact Ex.cfg fun B => divideM Ex.cfg.code B Ex.W Ex.s :=
  Ex.meets (Calls.divide _ _ _) (n := 8) (by decide +kernel)
example : ∃ r, Returns Ex.cfg (fun B => divideM Ex.cfg.code B Ex.D Ex.M) r ∧ Exact Ex.cfg fun B => divideM Ex.cfg.code B Ex.D Ex.M :=
  Ex.meets (Calls.divide _ _ _) (n := 8) (by decide +kernel)

/-! ### C11, trace -/

/-- `r` is the batch of traces of `a`. -/
structure IsTrace (a r : Tensor K) : Prop where
  shape : r.sh = a.bt
  entries : ∀ β, InRange a.bt β → r.get β = ∑ i ∈ Finset.range (min a.rows a.cols), a.at' β i i

/-- C11.  `B.trace` sums the diagonal in every batch element. -/
theorem C11_trace (c : Cfg K) {a : Mat K} {t : Tensor K} (ha : a.Valid) (h2 : 2 ≤ (den a).rank) (hd : a.DiagOk)
    (hr : Returns c (fun B => traceM B a) t) (hx : Exact c fun B => traceM B a) : IsTrace (den a) t := by
  obtain ⟨n, h⟩ := hr.strict hx
  simp only [traceM, bind_ok_iff] at h
  obtain ⟨d, h1, h⟩ := h
  have hd := IsDiagonalOf.of_eq h2 ((c.ok n).diag ha.own h2 hd h1)
  have e : t = sumAx 0 d := by
    have : axPos d.rank (-1) = .ok 0 := by
      have : d.rank = (den a).bt.length + 1 := by simp [Tensor.rank, hd.shape]
      rw [this]; unfold axPos; simp
    simp only [nSum, this, bind_ok_iff, pure_eq_ok, Except.ok.injEq, exists_eq_left'] at h
    exact h.symm
  subst e
  have e1 : (sumAx 0 d).sh = (den a).bt := by rw [sumAx_sh, hd.shape]; rfl
  refine ⟨e1, fun β hβ => ?_⟩
  unfold sumAx
  rw [ofFn_get _ (by rw [← sumAx_sh, e1]; exact hβ), hd.shape]
  refine Finset.sum_congr rfl fun i hi => ?_
  exact hd.entries β i hβ (Finset.mem_range.1 hi)

example : ∃ r, Returns Ex.cfg (fun B => traceM B (.kron Ex.W Ex.R)) r ∧ Exact Ex.cfg fun B => traceM B (.kron Ex.W Ex.R) :=
  Ex.meets (Calls.trace _) (n := 8) (by decide +kernel)

end Verif
