/-
C60: observations return, too, and have one outcome.
-/
import Verif.Prog3
import Verif.FineMd

set_option linter.unusedSectionVars false

namespace Verif

variable {K : Type} [Field K] [LinearOrder K] [IsStrictOrderedRing K]

namespace Obs

theorem calls (env : Env K) (k : Obs (Mat K)) : LCalls fun B L => k.run env B L := by
  intro bad B C L M h hL
  have num : ∀ {x y : E (Tensor K)}, Below bad x y → Below bad (Mat.num <$> x) (Mat.num <$> y) := by
    rintro x y (rfl | ⟨e, he, rfl⟩)
    · exact .refl _
    · exact .inr ⟨e, he, rfl⟩
  cases k with
  | dense a => exact num (h.dense a)
  | diag a => exact num (h.diag a)
  | trace a => exact num (Calls.trace a _ _ _ h)
  | sumAll a => exact Calls.sum a none _ _ _ h
  | sumAxis a x => exact Calls.sum a (some x) _ _ _ h
  | meanAll a => exact Calls.mean env a none _ _ _ h
  | meanAxis a x => exact Calls.mean env a (some x) _ _ _ h
  | logdet a => exact num (hL.logdet a)
  | ratio a b => exact num (LCalls.ratio a b _ _ _ _ _ h hL)
  | matmulDiag ta tb a b => exact num (matmulDiag_below h ta tb a b)
  | iqfDiag same a b c => exact num (LCalls.iqfDiag same a b c _ _ _ _ _ h hL)
  | reshape s a => exact num (Calls.reshape a s _ _ _ h)

/-- What it takes, besides `Dom`, for the observation to return. -/
def Fine : Obs (Mat K) → Prop
  | .dense _ => True
  | .diag a => a.DiagDef (den a).bt
  | .trace a => a.wo true ∧ a.DiagDef (den a).bt
  | .sumAll a => a.wo true ∧ 2 ≤ (den a).rank
  | .sumAxis a x => a.wo true ∧ ∃ k, AxisAt (den a).rank x k
  | .meanAll a => a.wo true ∧ 2 ≤ (den a).rank ∧ 0 ∉ (den a).sh
  | .meanAxis a x => a.wo true ∧ 0 ∉ (den a).sh ∧ ∃ k, AxisAt (den a).rank x k
  | .logdet a => a.DetFine
  | .ratio a b => a.isKron = false ∧ (b.kind ≠ some .wb → a.CholFine) ∧ b.PosDom ∧ a.wo true ∧ b.wo true
  | .matmulDiag _ _ a b => a.wo true ∧ b.wo true ∧ MdDef a b
  | .iqfDiag _ a b d => (∃ S, 0 ∉ S ∧ Fits S (den a).bt ∧ Fits S (den b).bt ∧ Fits S (den d).bt) ∧ a.PosDom ∧ a.wo true ∧ b.wo false ∧ d.wo false ∧
      b.isKron = false ∧ d.isKron = false ∧ (a.kind = some .wb → b.plain = true ∧ d.plain = true)
  | .reshape s a => a.wo true ∧ size s = size (den a).sh

theorem of_num {c : Cfg K} {lin : LinEnv K} {f : Ops K → LOps K → E (Tensor K)} {t : Tensor K} (h : LReturns c lin f t) : LReturns c lin (fun B L => Mat.num <$> f B L) (.num t) := by
  obtain ⟨m, n, h⟩ := h
  exact ⟨m, n, by simp only [h]; rfl⟩

theorem of_core {c : Cfg K} {lin : LinEnv K} {f : Ops K → E (Tensor K)} {t : Tensor K} (h : Returns c f t) : LReturns c lin (fun B _ => Mat.num <$> f B) (.num t) :=
  of_num (f := fun B _ => f B) ⟨0, h⟩

theorem exact_num {c : Cfg K} {f : Ops K → E (Tensor K)} (h : Exact c fun B => Mat.num <$> f B) : Exact c f := fun n => num_inj (h n)

/-- An observation of supported matrices in its domain returns. -/
theorem progress (c : Cfg K) {lin : LinEnv K} (hl : lin.Good) {k : Obs (Mat K)} (hv : ∀ a ∈ k.args, a.Supported) (hd : k.Dom) (hf : k.Fine)
    (hx : LExact c lin fun B L => k.run c.code B L) : ∃ r, LReturns c lin (fun B L => k.run c.code B L) r := by
  cases k with
  | dense a => exact ⟨_, of_core (C45_dense c (hv a (by simp [args])) (exact_num (hx 0)))⟩
  | diag a =>
    obtain ⟨t, h, _⟩ := C45_diag c (hv a (by simp [args])) hd.1 hf (exact_num (hx 0))
    exact ⟨_, of_core h⟩
  | trace a =>
    obtain ⟨t, h, _⟩ := C53_trace c (hv a (by simp [args])) hf.1 hd.1 hf.2 hd.2
    exact ⟨_, of_core h⟩
  | sumAll a =>
    obtain ⟨t, h, _⟩ := C53_sum_all c (hv a (by simp [args])) hf.1 hf.2
    exact ⟨_, 0, h⟩
  | sumAxis a x =>
    obtain ⟨w, k, hk⟩ := hf
    obtain ⟨t, h, _⟩ := C53_sum_axis c (hv a (by simp [args])) w hd hk
    exact ⟨_, 0, h⟩
  | meanAll a =>
    obtain ⟨t, _, h, _⟩ := C53_mean_all c (hv a (by simp [args])) hf.1 hf.2.1 hf.2.2
    exact ⟨_, 0, h⟩
  | meanAxis a x =>
    obtain ⟨w, h0, k, hk⟩ := hf
    obtain ⟨t, _, h, _⟩ := C53_mean_axis c (hv a (by simp [args])) w hd h0 hk
    exact ⟨_, 0, h⟩
  | logdet a =>
    obtain ⟨t, h, _⟩ := C50_logdet c hl (hv a (by simp [args])) hf fun m n => num_inj (hx m n)
    exact ⟨_, of_num h⟩
  | ratio a b =>
    obtain ⟨hc, h2, hs, hab, hda, _, bi, hi⟩ := hd
    obtain ⟨nk, hch, hp, wa, wb⟩ := hf
    obtain ⟨t, h, _⟩ := C50_ratio_always c hl (hv a (by simp [args])) (hv b (by simp [args])) hc h2 hs hab nk (fun h => ⟨hch h, (hda h).2⟩) hp hi wa wb
    exact ⟨_, of_num h⟩
  | matmulDiag ta tb a b =>
    obtain ⟨hc, h2, h2', h1, h3, h4, h5⟩ := hd
    obtain ⟨t, h, _⟩ := C53_matmul_diag c (hv a (by simp [args])) (hv b (by simp [args])) hf.1 hf.2.1 hc h2 h2' h1 h3 h4 h5 hf.2.2
    exact ⟨_, of_core h⟩
  | iqfDiag same a b d =>
    obtain ⟨_, h2b, h2d, _, ⟨ai, hi⟩, hs, hz, h3, h4, h5, _⟩ := hd
    obtain ⟨⟨S, h0, fa, fb, fd⟩, hp, wa, wb, wd, nb, nd, hpl⟩ := hf
    have qa := hv a (by simp [args])
    have qb := hv b (by simp [args])
    have qd := hv d (by simp [args])
    obtain ⟨t, h, _⟩ := C50_iqf_diag_always c hl h0 (qa.valid.own.mono fa) (qb.valid.own.mono fb) (qd.valid.own.mono fd) qa.fit qb.fit qd.fit h2b h2d hp hi hs hz h3 h4 h5 wa wb wd nb nd hpl
    exact ⟨_, of_num h⟩
  | reshape s a =>
    obtain ⟨t, h, _⟩ := C53_reshape c (hv a (by simp [args])) hf.1 hf.2
    exact ⟨_, of_core h⟩

end Obs

/-- C60.  An observation at the end of a history, of supported matrices in its domain, returns, with one result; it is what is observed at the end of the same history on dense arrays. -/
theorem C60_observe_total (c : Cfg K) {lin : LinEnv K} (hl : lin.Good) {st st' : List (Mat K)} {ks : List (Call K ℕ)} {o : Obs ℕ} (hv : ∀ a ∈ st, a.Valid) (h : Hist c lin st ks st')
    (ho : ∀ i ∈ o.args, i < st'.length) (hs : ∀ a ∈ (o.map (readVar (.num (scalarT 0)) st')).args, a.Supported)
    (hd : (o.map (readVar (.num (scalarT 0)) st')).Dom) (hf : (o.map (readVar (.num (scalarT 0)) st')).Fine)
    (hx : LExact c lin fun B L => (o.map (readVar (.num (scalarT 0)) st')).run c.code B L) :
    ∃ r, LReturns c lin (fun B L => (o.map (readVar (.num (scalarT 0)) st')).run c.code B L) r ∧
      (∀ r', LReturns c lin (fun B L => (o.map (readVar (.num (scalarT 0)) st')).run c.code B L) r' → r' = r) ∧
      ∃ ds, DHist (st.map den) ks ds ∧ (o.map (readVar (scalarT 0) ds)).Spec lin (den r) := by
  obtain ⟨r, hr⟩ := Obs.progress c hl hs hd hf hx
  exact ⟨r, hr, fun r' hr' => LReturns.unique (Obs.calls _ _) hr' hr, C60_observe c hl.lawful hv h ho hd hr hx⟩

/-! The hypotheses of `Obs.progress` are met by the quadratic form of a Woodbury matrix over the reals. -/

example : (Obs.iqfDiag true Ex.PR Ex.BR Ex.BR).Fine :=
  ⟨⟨[], by simp, Fits.nil _, Fits.nil _, Fits.nil _⟩, Ex.PR_posDom, Ex.PR_wo, trivial, trivial, rfl, rfl, fun _ => ⟨rfl, rfl⟩⟩

example : ∃ r, LReturns (⟨fun _ => true, 0⟩ : Cfg ℝ) realLin (fun B L => (Obs.dense Ex.PR).run (Cfg.code ⟨fun _ => true, 0⟩) B L) r :=
  Obs.progress _ realLin_good (by intro a ha; simp only [Obs.args, List.mem_singleton] at ha; subst ha; exact Ex.PR_supported) trivial trivial (LExact.of_tol (le_refl _) _)

end Verif
