/-
Data types of samples (C59).
-/
import Verif.DFlow8
import Verif.Block

set_option linter.unusedSectionVars false
set_option linter.unusedVariables false

namespace Verif

variable {K D : Type} [Field K] [LinearOrder K]

/-! ### Samples -/

/-- `B.sample(state, a, num)` for matrices which are not Woodbury, `ops/sample.py` 8-29: the noise has the floating-point data type which goes with that of `a` (`B.dtype_float`),
the promotion of the latter with `f`, the smallest floating-point type. -/
def SampleOne (p : D → D → D) (z : Bool) (f : D) (a x : DM D) : Prop :=
  ∃ ch e, LRuns p z f true (.chol a) ch ∧ a.DtIs p e ∧ Runs p z (.matmul false false ch (.num (p e f))) x

/-- `B.sample(state, a, num)`, `ops/sample.py` 8-45. -/
def SampleRuns (p : D → D → D) (z : Bool) (f : D) (a x : DM D) : Prop :=
  match a with
  | .wb d l r m => ∃ u v, SampleOne p z f (.diag d) u ∧ SampleOne p z f (.lr l r m) v ∧ Runs p z (.add u v) x  -- 41-45
  | a => SampleOne p z f a x

variable {p : D → D → D} {z c : Bool} {f : D}

theorem SampleOne.all {S : D → Prop} (hp : ∀ x y, S x → S y → S (p x y)) (hf : ∀ x, S x → S (p x f)) {a x : DM D} (h : SampleOne p z f a x) (ha : a.All S) : x.All S := by
  obtain ⟨ch, e, h1, h2, h3⟩ := h
  exact h3.all hp ⟨h1.all hp (fun _ => hf) ha, hf _ (h2.all hp ha)⟩

theorem SampleOne.ok {a x : DM D} (h : SampleOne p z f a x) (ha : a.Ok) : x.Ok := by
  obtain ⟨ch, e, h1, h2, h3⟩ := h
  exact h3.ok ⟨h1.ok ha, trivial⟩

theorem SampleRuns.all {S : D → Prop} (hp : ∀ x y, S x → S y → S (p x y)) (hf : ∀ x, S x → S (p x f)) {a x : DM D} (h : SampleRuns p z f a x) (ha : a.All S) : x.All S := by
  unfold SampleRuns at h
  split at h
  · obtain ⟨u, v, h1, h2, h3⟩ := h
    exact h3.all hp ⟨h1.all hp hf ha.1, h2.all hp hf ha.2⟩
  · exact SampleOne.all hp hf h ha

theorem SampleRuns.ok {a x : DM D} (h : SampleRuns p z f a x) (ha : a.Ok) : x.Ok := by
  unfold SampleRuns at h
  split at h
  · obtain ⟨u, v, h1, h2, h3⟩ := h
    exact h3.ok ⟨h1.ok trivial, h2.ok ha⟩
  · exact SampleOne.ok h ha

section
variable [SemilatticeSup D]

theorem SampleOne.noZero {a x : DM D} (h : SampleOne (· ⊔ ·) false f a x) (ha : a.NoZero) : x.NoZero := by
  obtain ⟨ch, e, h1, h2, h3⟩ := h
  exact h3.noZero ⟨h1.noZero ha, trivial⟩

theorem SampleOne.back (u : D) {a x : DM D} (h : SampleOne (· ⊔ ·) false f a x) (ha : a.NoZero) (hx : x.All (· ≤ u)) : a.All (· ≤ u) := by
  obtain ⟨ch, e, h1, h2, h3⟩ := h
  exact h2.le.1 (le_trans le_sup_left (h3.back u ⟨h1.noZero ha, trivial⟩ hx).2)

theorem SampleRuns.back (u : D) {a x : DM D} (h : SampleRuns (· ⊔ ·) false f a x) (ha : a.NoZero) (hx : x.All (· ≤ u)) : a.All (· ≤ u) := by
  unfold SampleRuns at h
  split at h
  · obtain ⟨x, y, h1, h2, h3⟩ := h
    have j := h3.back u ⟨h1.noZero trivial, h2.noZero ha⟩ hx
    exact ⟨h1.back u trivial j.1, h2.back u ha j.2⟩
  · exact SampleOne.back u h ha hx

end

/-- Every sample is followed by the rules. -/
theorem LCov.sample {B : Ops K} {L : LOps K} (H : Cov p z B) (G : LCov p z f true L) {σ : Type} {randn : σ → Shp → σ × Tensor K} {num : ℕ} {st : σ} {a : Mat K} {q : σ × Mat K} {s : DM D}
    (ha : Lab a s) (oa : s.Ok) (h : sampleM B L randn num st a = .ok q) : ∃ x, Lab q.2 x ∧ SampleRuns p z f s x := by
  have one {st : σ} {a : Mat K} {q : σ × Mat K} {s : DM D} (ha : Lab a s) (oa : s.Ok) (h : (do
      let ch ← L.chol a
      let bt ← shapeBatch a
      let k := dim (← shape ch) 0
      let x := randn st (num :: k :: bt)
      let s ← B.matmul false false ch (.num x.2)
      (pure (x.1, s) : E (σ × Mat K))) = .ok q) : ∃ x, Lab q.2 x ∧ SampleOne p z f s x := by
    simp only [bind_ok_iff, pure_eq_ok] at h
    obtain ⟨ch, hc, bt, _, sh, _, w, hw, rfl⟩ := h
    obtain ⟨u, lu, ru⟩ := G.chol ha oa hc
    obtain ⟨e, he⟩ := oa.dt p
    obtain ⟨x, lx, rx⟩ := H.matmul lu (.num (d := p e f)) (ru.ok oa) trivial hw
    exact ⟨x, lx, u, e, ru, he, rx⟩
  have ha' := ha
  cases ha with
  | wb a1 a2 a3 =>
    simp only [sampleM, bind_ok_iff, pure_eq_ok] at h
    obtain ⟨x, hx, y, hy, w, hw, rfl⟩ := h
    obtain ⟨u, lu, ru⟩ := one (.diag) trivial (by simpa only [bind_ok_iff, pure_eq_ok] using hx)
    obtain ⟨v, lv, rv⟩ := one (.lr a1 a2 a3) oa (by simpa only [bind_ok_iff, pure_eq_ok] using hy)
    obtain ⟨t, lt, rt⟩ := H.add lu lv (ru.ok trivial) (rv.ok oa) hw
    exact ⟨t, lt, u, v, ru, rv, rt⟩
  | _ => exact one ha' oa h

/-- The typed matrix `r` is a sample from `a`; with `z = false` in a run without zeros. -/
def TSample {σ : Type} (c : Cfg K) (lin : LinEnv K) (p : D → D → D) (z : Bool) (f : D) (randn : σ → Shp → σ × Tensor K) (num : ℕ) (st : σ) (a : TMat K D) (r : TMat K D) : Prop :=
  (∃ st', LReturns c lin (fun B L => sampleM B L randn num st a.mat) (st', r.mat)) ∧ SampleRuns p z f a.skel r.skel

section
variable {σ : Type} {randn : σ → Shp → σ × Tensor K} {num : ℕ} {st st' : σ} {lin : LinEnv K}

/-- **C59.** Every sample from a typed matrix is a typed matrix. -/
theorem C59_sample_covered {c : Cfg K} (p : D → D → D) (f : D) {a : TMat K D} {r : Mat K} (ha : a.mat.Valid)
    (h : LReturns c lin (fun B L => sampleM B L randn num st a.mat) (st', r)) : ∃ r' : TMat K D, r'.mat = r ∧ TSample c lin p true f randn num st a r' := by
  obtain ⟨m, n, hr⟩ := h
  have H : Cov p true (ops c.code n) := ops_cov p (z := true) (fun h => by cases h) n
  obtain ⟨x, l, run⟩ := LCov.sample H (lops_cov (f := f) (env := c.code) (lin := lin) (fun h => by cases h) H m) a.lab (TMat.ok_of_wf ha.choose_spec) hr
  obtain ⟨t, rfl, rfl⟩ := l.typed
  exact ⟨t, rfl, ⟨_, m, n, hr⟩, run⟩

/-- **C59.** The same without zeros: no exact zero is a Python number and no sum of low-rank matrices vanishes in the run. -/
theorem C59_sample_covered_nozero [IsStrictOrderedRing K] {c : Cfg K} (p : D → D → D) (f : D) {a : TMat K D} {r : Mat K} (ha : a.mat.Valid)
    (hn : ∀ t, c.isNumber t = true → t.get (fun _ => 0) ≠ 0) {m n : ℕ}
    (h : sampleM (ops c.noCancel n) (lops c.code lin (ops c.noCancel n) m) randn num st a.mat = .ok (st', r)) :
    ∃ r' : TMat K D, r'.mat = r ∧ TSample c lin p false f randn num st a r' := by
  have H : Cov p false (ops c.noCancel n) := ops_cov p (Cfg.noCancel_zeros hn) n
  obtain ⟨x, l, run⟩ := LCov.sample H (lops_cov (f := f) (env := c.code) (lin := lin) (fun _ => hn) H m) a.lab (TMat.ok_of_wf ha.choose_spec) h
  obtain ⟨t, rfl, rfl⟩ := l.typed
  have hb := ops_below_env c.noCancel_below n
  exact ⟨t, rfl, ⟨_, m, n, (LCalls.sample randn num st a.mat _ _ _ _ _ hb (lops_below _ _ hb m)).ok h⟩, run⟩

/-- **C59.** The data types of a sample come from the matrix. -/
theorem C59_sample_closed {c : Cfg K} {p : D → D → D} {z : Bool} {f : D} {a r : TMat K D} (h : TSample c lin p z f randn num st a r) {S : D → Prop}
    (hS : ∀ x y, S x → S y → S (p x y)) (hf : ∀ x, S x → S (p x f)) (ha : ∀ d, a.HasD d → S d) (d : D) (hd : r.HasD d) : S d :=
  r.all_iff.1 (h.2.all hS hf (a.all_iff.2 ha)) d hd

/-- **C59.** Without zeros a sample has the data type of the matrix, if that is at least the data type of the square root of an integer. -/
theorem C59_sample_promoted [SemilatticeSup D] {c : Cfg K} {δ : DEnv K D} (hδ : δ.promote = (· ⊔ ·)) {f : D} {a r : TMat K D} {d : D} (ha : a.mat.Valid) (na : a.skel.NoZero)
    (h : TSample c lin δ.promote false f randn num st a r) (h1 : dtypeM δ a = .ok d) (hf : f ≤ d) : dtypeM δ r = .ok d := by
  obtain ⟨e, he⟩ := (h.2.ok (TMat.ok_of_wf ha.choose_spec)).dt δ.promote
  have he' := he
  rw [dtypeM_iff, hδ] at h1
  rw [hδ] at he
  have hr := h.2
  rw [hδ] at hr
  have : e = d := le_antisymm (he.le.2 (hr.all (S := (· ≤ d)) (fun _ _ => sup_le) (fun _ hx => sup_le hx hf) (h1.le.1 (le_refl d)))) (h1.le.2 (hr.back e na (he.le.1 (le_refl e))))
  subst this
  exact (dtypeM_iff r).2 he'

end

example : ∃ r, TSample Ex.cfgA Ex.lin Ex.denv.promote false false Ex.randn 1 (0, 0) Ex.tP r ∧ dtypeM Ex.denv r = .ok true := by
  have hr : Ex.isOk (sampleM (ops Ex.cfgA.noCancel 9) (lops Ex.cfgA.code Ex.lin (ops Ex.cfgA.noCancel 9) 9) Ex.randn 1 (0, 0) Ex.tP.mat) = true := by decide +kernel
  obtain ⟨⟨s, r⟩, hr⟩ := Ex.exists_of_isOk hr
  obtain ⟨r', -, h⟩ := C59_sample_covered_nozero Ex.denv.promote false Ex.tP_valid (fun _ h => by cases h) hr
  exact ⟨r', h, C59_sample_promoted rfl Ex.tP_valid ⟨⟨⟩, ⟨⟩, ⟨⟩⟩ h (by rfl) (by decide)⟩

end Verif
