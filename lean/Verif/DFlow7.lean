/-
Data types of whole expressions (C59), and concrete cases for linear algebra.
-/
import Verif.DFlow6
import Verif.LinExpr

set_option linter.unusedSectionVars false
set_option linter.unusedVariables false

namespace Verif

variable {K D : Type} [Field K] [LinearOrder K]

/-! ### Quotients -/

/-- `B.divide`, `ops/divide.py` 11-22. -/
inductive DivRuns (p : D → D → D) (z : Bool) : DM D → DM D → DM D → Prop
  | num {s t} : DivRuns p z (.num s) (.num t) (.num (p s t))
  | const {a a' b d x} : DConv z a a' → DConv z b (.const d) → Runs p z (.mul a' (.const d)) x → DivRuns p z a b x  -- 20-22; `1 / const` has the data type of `const`
  | dense {a a' b b' s t} : DConv z a a' → DConv z b b' → b'.kind ≠ some .const → Runs p z (.dense a') (.num s) → Runs p z (.dense b') (.num t) →
      DivRuns p z a b (.dense (p s t))  -- 11-17

theorem DivRuns.all {p : D → D → D} {z : Bool} {S : D → Prop} (hp : ∀ x y, S x → S y → S (p x y)) {a b x : DM D} (h : DivRuns p z a b x) (ha : a.All S) (hb : b.All S) : x.All S := by
  cases h with
  | num => exact hp _ _ ha hb
  | const h1 h2 h3 => exact h3.all hp ⟨h1.all.2 ha, h2.all.2 hb⟩
  | dense h1 h2 _ h3 h4 => exact hp _ _ (h3.all hp (h1.all.2 ha)) (h4.all hp (h2.all.2 hb))

theorem DivRuns.ok {p : D → D → D} {z : Bool} {a b x : DM D} (h : DivRuns p z a b x) (ha : a.Ok) (hb : b.Ok) : x.Ok := by
  cases h with
  | num => trivial
  | const h1 h2 h3 => exact h3.ok ⟨h1.ok ha, trivial⟩
  | dense => trivial

theorem DivRuns.noZero [SemilatticeSup D] {a b x : DM D} (h : DivRuns (· ⊔ ·) false a b x) (ha : a.NoZero) (hb : b.NoZero) : x.NoZero := by
  cases h with
  | num => trivial
  | const h1 h2 h3 => exact h3.noZero ⟨h1.noZero ha, trivial⟩
  | dense => trivial

theorem DivRuns.back [SemilatticeSup D] (u : D) {a b x : DM D} (h : DivRuns (· ⊔ ·) false a b x) (ha : a.NoZero) (hb : b.NoZero) (hx : x.All (· ≤ u)) :
    a.All (· ≤ u) ∧ b.All (· ≤ u) := by
  cases h with
  | num => exact sup_le_iff.1 hx
  | const h1 h2 h3 =>
    have j := h3.back u ⟨h1.noZero ha, trivial⟩ hx
    exact ⟨h1.all.1 j.1, h2.all.1 j.2⟩
  | dense h1 h2 _ h3 h4 =>
    have j := sup_le_iff.1 hx
    exact ⟨h1.all.1 (h3.back u (h1.noZero ha) j.1), h2.all.1 (h4.back u (h2.noZero hb) j.2)⟩

theorem Cov.divide {p : D → D → D} {z : Bool} {B : Ops K} {env : Env K} (hz : env.Numbers z) (H : Cov p z B) {a b x : Mat K} {s s' : DM D} (ha : Lab a s) (hb : Lab b s') (oa : s.Ok) (ob : s'.Ok)
    (h : divideM env B a b = .ok x) : ∃ y, Lab x y ∧ DivRuns p z s s' y := by
  by_cases hn : (∃ t, a = .num t) ∧ ∃ u, b = .num u
  · obtain ⟨⟨t, rfl⟩, u, rfl⟩ := hn
    cases ha
    cases hb
    simp only [divideM, bind_ok_iff, pure_eq_ok] at h
    obtain ⟨_, _, rfl⟩ := h
    exact ⟨_, .num, .num⟩
  have e : divideM env B a b = (match convertAM env b with
      | .const t r c => divideConst B (convertAM env a) t r c
      | b => do return mkDense (← nDiv (← B.dense (convertAM env a)) (← B.dense b))) := by
    cases a <;> cases b <;> first | rfl | exact (hn ⟨⟨_, rfl⟩, _, rfl⟩).elim
  rw [e] at h
  obtain ⟨s1, l1, c1⟩ := convertAM_lab' hz ha
  obtain ⟨s2, l2, c2⟩ := convertAM_lab' hz hb
  have o1 := c1.ok oa
  have o2 := c2.ok ob
  generalize convertAM env a = a' at h l1
  generalize convertAM env b = b' at h l2
  have dense : s2.kind ≠ some .const → (do return mkDense (← nDiv (← B.dense a') (← B.dense b')) : E (Mat K)) = .ok x → ∃ y, Lab x y ∧ DivRuns p z s s' y := by
    intro hk hx
    simp only [bind_ok_iff, pure_eq_ok] at hx
    obtain ⟨t, ht, u, hu, w, _, rfl⟩ := hx
    obtain ⟨d1, r1⟩ := H.dense l1 o1 ht
    obtain ⟨d2, r2⟩ := H.dense l2 o2 hu
    exact ⟨_, .dense, .dense c1 c2 hk r1 r2⟩
  have l2' := l2
  cases l2 with
  | @const t i j d =>
    simp only [divideConst, bind_ok_iff] at h
    obtain ⟨w, _, m, hm, h⟩ := h
    obtain ⟨y, ly, ry⟩ := H.mul l1 (mkConst_lab hm d) o1 trivial h
    exact ⟨y, ly, .const c1 c2 ry⟩
  | _ => exact dense (by simp [DM.kind]) h

/-! ### Expressions -/

/-- Expressions over typed matrices; the numbers in them have a data type of their own. -/
inductive TExpr (K D : Type) [Zero K] where
  | mat (a : TMat K D)
  | add (e g : TExpr K D)
  | sub (e g : TExpr K D)
  | mul (e g : TExpr K D)
  | div (e g : TExpr K D)
  | matmul (ta tb : Bool) (e g : TExpr K D)
  | neg (e : TExpr K D)
  | tr (e : TExpr K D)
  | scale (x : K) (d : D) (e : TExpr K D)
  | shift (e : TExpr K D) (x : K) (d : D)
  | inv (e : TExpr K D)
  | solve (e g : TExpr K D)

namespace TExpr

/-- The expression over the values. -/
def val : TExpr K D → LExpr K
  | .mat a => .mat a.mat
  | .add e g => .add e.val g.val
  | .sub e g => .sub e.val g.val
  | .mul e g => .mul e.val g.val
  | .div e g => .div e.val g.val
  | .matmul ta tb e g => .matmul ta tb e.val g.val
  | .neg e => .neg e.val
  | .tr e => .tr e.val
  | .scale x _ e => .scale x e.val
  | .shift e x _ => .shift e.val x
  | .inv e => .inv e.val
  | .solve e g => .solve e.val g.val

/-- Every data type in the expression satisfies `S`. -/
def All (S : D → Prop) : TExpr K D → Prop
  | .mat a => ∀ d, a.HasD d → S d
  | .add e g | .sub e g | .mul e g | .div e g | .matmul _ _ e g | .solve e g => e.All S ∧ g.All S
  | .neg e | .tr e | .inv e => e.All S
  | .scale _ d e => S d ∧ e.All S
  | .shift e _ d => e.All S ∧ S d

/-- The matrices in the expression satisfy `P`. -/
def Leaves (P : TMat K D → Prop) : TExpr K D → Prop
  | .mat a => P a
  | .add e g | .sub e g | .mul e g | .div e g | .matmul _ _ e g | .solve e g => e.Leaves P ∧ g.Leaves P
  | .neg e | .tr e | .inv e | .scale _ _ e | .shift e _ _ => e.Leaves P

/-- The expression gives a result of this class and these data types. -/
def Runs (p : D → D → D) (z : Bool) (f : D) : TExpr K D → DM D → Prop
  | .mat a, x => x = a.skel
  | .add e g, x | .sub e g, x => ∃ u v, e.Runs p z f u ∧ g.Runs p z f v ∧ Verif.Runs p z (.add u v) x
  | .mul e g, x => ∃ u v, e.Runs p z f u ∧ g.Runs p z f v ∧ Verif.Runs p z (.mul u v) x
  | .div e g, x => ∃ u v, e.Runs p z f u ∧ g.Runs p z f v ∧ DivRuns p z u v x
  | .matmul ta tb e g, x => ∃ u v, e.Runs p z f u ∧ g.Runs p z f v ∧ Verif.Runs p z (.matmul ta tb u v) x
  | .neg e, x => e.Runs p z f x
  | .tr e, x => ∃ u, e.Runs p z f u ∧ x = u.tr
  | .scale _ d e, x => ∃ u, e.Runs p z f u ∧ Verif.Runs p z (.mul (.num d) u) x
  | .shift e _ d, x => ∃ u, e.Runs p z f u ∧ Verif.Runs p z (.add u (.num d)) x
  | .inv e, x => ∃ u, e.Runs p z f u ∧ LRuns p z f false (.inv u) x
  | .solve e g, x => ∃ u v, e.Runs p z f u ∧ g.Runs p z f v ∧ LRuns p z f false (.solve u v) x

theorem Runs.ok {p : D → D → D} {z : Bool} {f : D} {e : TExpr K D} (he : e.Leaves fun a => a.skel.Ok) {x : DM D} (h : e.Runs p z f x) : x.Ok := by
  induction e generalizing x with
  | mat a => exact h ▸ he
  | add e g i j => obtain ⟨u, v, h1, h2, h⟩ := h; exact h.ok ⟨i he.1 h1, j he.2 h2⟩
  | sub e g i j => obtain ⟨u, v, h1, h2, h⟩ := h; exact h.ok ⟨i he.1 h1, j he.2 h2⟩
  | mul e g i j => obtain ⟨u, v, h1, h2, h⟩ := h; exact h.ok ⟨i he.1 h1, j he.2 h2⟩
  | div e g i j => obtain ⟨u, v, h1, h2, h⟩ := h; exact h.ok (i he.1 h1) (j he.2 h2)
  | matmul ta tb e g i j => obtain ⟨u, v, h1, h2, h⟩ := h; exact h.ok ⟨i he.1 h1, j he.2 h2⟩
  | neg e i => exact i he h
  | tr e i => obtain ⟨u, h1, rfl⟩ := h; exact DM.ok_tr (i he h1)
  | scale k d e i => obtain ⟨u, h1, h⟩ := h; exact h.ok ⟨trivial, i he h1⟩
  | shift e k d i => obtain ⟨u, h1, h⟩ := h; exact h.ok ⟨i he h1, trivial⟩
  | inv e i => obtain ⟨u, h1, h⟩ := h; exact h.ok (i he h1)
  | solve e g i j => obtain ⟨u, v, h1, h2, h⟩ := h; exact h.ok ⟨i he.1 h1, j he.2 h2⟩

theorem Runs.all {p : D → D → D} {z : Bool} {f : D} {S : D → Prop} (hp : ∀ x y, S x → S y → S (p x y)) {e : TExpr K D} (he : e.All S) {x : DM D} (h : e.Runs p z f x) : x.All S := by
  induction e generalizing x with
  | mat a => exact h ▸ a.all_iff.2 he
  | add e g i j => obtain ⟨u, v, h1, h2, h⟩ := h; exact h.all hp ⟨i he.1 h1, j he.2 h2⟩
  | sub e g i j => obtain ⟨u, v, h1, h2, h⟩ := h; exact h.all hp ⟨i he.1 h1, j he.2 h2⟩
  | mul e g i j => obtain ⟨u, v, h1, h2, h⟩ := h; exact h.all hp ⟨i he.1 h1, j he.2 h2⟩
  | div e g i j => obtain ⟨u, v, h1, h2, h⟩ := h; exact h.all hp (i he.1 h1) (j he.2 h2)
  | matmul ta tb e g i j => obtain ⟨u, v, h1, h2, h⟩ := h; exact h.all hp ⟨i he.1 h1, j he.2 h2⟩
  | neg e i => exact i he h
  | tr e i => obtain ⟨u, h1, rfl⟩ := h; exact (DM.all_tr _).2 (i he h1)
  | scale k d e i => obtain ⟨u, h1, h⟩ := h; exact h.all hp ⟨he.1, i he.2 h1⟩
  | shift e k d i => obtain ⟨u, h1, h⟩ := h; exact h.all hp ⟨i he.1 h1, he.2⟩
  | inv e i => obtain ⟨u, h1, h⟩ := h; exact h.all hp (fun h => by cases h) (i he h1)
  | solve e g i j => obtain ⟨u, v, h1, h2, h⟩ := h; exact h.all hp (fun h => by cases h) ⟨i he.1 h1, j he.2 h2⟩

section
variable [SemilatticeSup D]

theorem Runs.noZero {f : D} {e : TExpr K D} (he : e.Leaves fun a => a.skel.NoZero) {x : DM D} (h : e.Runs (· ⊔ ·) false f x) : x.NoZero := by
  induction e generalizing x with
  | mat a => exact h ▸ he
  | add e g i j => obtain ⟨u, v, h1, h2, h⟩ := h; exact h.noZero ⟨i he.1 h1, j he.2 h2⟩
  | sub e g i j => obtain ⟨u, v, h1, h2, h⟩ := h; exact h.noZero ⟨i he.1 h1, j he.2 h2⟩
  | mul e g i j => obtain ⟨u, v, h1, h2, h⟩ := h; exact h.noZero ⟨i he.1 h1, j he.2 h2⟩
  | div e g i j => obtain ⟨u, v, h1, h2, h⟩ := h; exact h.noZero (i he.1 h1) (j he.2 h2)
  | matmul ta tb e g i j => obtain ⟨u, v, h1, h2, h⟩ := h; exact h.noZero ⟨i he.1 h1, j he.2 h2⟩
  | neg e i => exact i he h
  | tr e i => obtain ⟨u, h1, rfl⟩ := h; exact (DM.noZero_tr _).2 (i he h1)
  | scale k d e i => obtain ⟨u, h1, h⟩ := h; exact h.noZero ⟨trivial, i he h1⟩
  | shift e k d i => obtain ⟨u, h1, h⟩ := h; exact h.noZero ⟨i he h1, trivial⟩
  | inv e i => obtain ⟨u, h1, h⟩ := h; exact h.noZero (i he h1)
  | solve e g i j => obtain ⟨u, v, h1, h2, h⟩ := h; exact h.noZero ⟨i he.1 h1, j he.2 h2⟩

theorem Runs.back {f : D} (w : D) {e : TExpr K D} (he : e.Leaves fun a => a.skel.NoZero) {x : DM D} (h : e.Runs (· ⊔ ·) false f x) (hx : x.All (· ≤ w)) : e.All (· ≤ w) := by
  induction e generalizing x with
  | mat a => exact a.all_iff.1 (h ▸ hx)
  | add e g i j => obtain ⟨u, v, h1, h2, h⟩ := h; exact (h.back w ⟨h1.noZero he.1, h2.noZero he.2⟩ hx).imp (i he.1 h1) (j he.2 h2)
  | sub e g i j => obtain ⟨u, v, h1, h2, h⟩ := h; exact (h.back w ⟨h1.noZero he.1, h2.noZero he.2⟩ hx).imp (i he.1 h1) (j he.2 h2)
  | mul e g i j => obtain ⟨u, v, h1, h2, h⟩ := h; exact (h.back w ⟨h1.noZero he.1, h2.noZero he.2⟩ hx).imp (i he.1 h1) (j he.2 h2)
  | div e g i j => obtain ⟨u, v, h1, h2, h⟩ := h; exact (h.back w (h1.noZero he.1) (h2.noZero he.2) hx).imp (i he.1 h1) (j he.2 h2)
  | matmul ta tb e g i j => obtain ⟨u, v, h1, h2, h⟩ := h; exact (h.back w ⟨h1.noZero he.1, h2.noZero he.2⟩ hx).imp (i he.1 h1) (j he.2 h2)
  | neg e i => exact i he h hx
  | tr e i => obtain ⟨u, h1, rfl⟩ := h; exact i he h1 ((DM.all_tr _).1 hx)
  | scale k d e i => obtain ⟨u, h1, h⟩ := h; exact (h.back w ⟨trivial, h1.noZero (e := e) he⟩ hx).imp id (i he h1)
  | shift e k d i => obtain ⟨u, h1, h⟩ := h; exact (h.back w ⟨h1.noZero (e := e) he, trivial⟩ hx).imp (i he h1) id
  | inv e i => obtain ⟨u, h1, h⟩ := h; exact i he h1 (h.back w (h1.noZero (e := e) he) hx)
  | solve e g i j => obtain ⟨u, v, h1, h2, h⟩ := h; exact (h.back w ⟨h1.noZero he.1, h2.noZero he.2⟩ hx).imp (i he.1 h1) (j he.2 h2)

end

/-- Every evaluation is followed by the rules. -/
theorem cov {p : D → D → D} {z c : Bool} {f : D} {env : Env K} {B : Ops K} {L : LOps K} (hz : env.Numbers z) (H : Cov p z B) (G : LCov p z f c L) {e : TExpr K D}
    (he : e.Leaves fun a => a.skel.Ok) {r : Mat K} (h : e.val.eval env B L = .ok r) : ∃ x, Lab r x ∧ e.Runs p z f x := by
  induction e generalizing r with
  | mat a => cases h; exact ⟨_, a.lab, rfl⟩
  | add e g i j =>
    simp only [val, LExpr.eval, bind_ok_iff] at h
    obtain ⟨x, hx, y, hy, h⟩ := h
    obtain ⟨u, lu, ru⟩ := i he.1 hx
    obtain ⟨v, lv, rv⟩ := j he.2 hy
    obtain ⟨w, lw, rw'⟩ := H.add lu lv (ru.ok he.1) (rv.ok he.2) h
    exact ⟨w, lw, u, v, ru, rv, rw'⟩
  | sub e g i j =>
    simp only [val, LExpr.eval, bind_ok_iff] at h
    obtain ⟨x, hx, y, hy, h⟩ := h
    obtain ⟨u, lu, ru⟩ := i he.1 hx
    obtain ⟨v, lv, rv⟩ := j he.2 hy
    obtain ⟨w, lw, rw'⟩ := H.subtract hz lu lv (ru.ok he.1) (rv.ok he.2) h
    exact ⟨w, lw, u, v, ru, rv, rw'⟩
  | mul e g i j =>
    simp only [val, LExpr.eval, bind_ok_iff] at h
    obtain ⟨x, hx, y, hy, h⟩ := h
    obtain ⟨u, lu, ru⟩ := i he.1 hx
    obtain ⟨v, lv, rv⟩ := j he.2 hy
    obtain ⟨w, lw, rw'⟩ := H.mul lu lv (ru.ok he.1) (rv.ok he.2) h
    exact ⟨w, lw, u, v, ru, rv, rw'⟩
  | div e g i j =>
    simp only [val, LExpr.eval, bind_ok_iff] at h
    obtain ⟨x, hx, y, hy, h⟩ := h
    obtain ⟨u, lu, ru⟩ := i he.1 hx
    obtain ⟨v, lv, rv⟩ := j he.2 hy
    obtain ⟨w, lw, rw'⟩ := H.divide hz lu lv (ru.ok he.1) (rv.ok he.2) h
    exact ⟨w, lw, u, v, ru, rv, rw'⟩
  | matmul ta tb e g i j =>
    simp only [val, LExpr.eval, bind_ok_iff] at h
    obtain ⟨x, hx, y, hy, h⟩ := h
    obtain ⟨u, lu, ru⟩ := i he.1 hx
    obtain ⟨v, lv, rv⟩ := j he.2 hy
    obtain ⟨w, lw, rw'⟩ := H.matmul lu lv (ru.ok he.1) (rv.ok he.2) h
    exact ⟨w, lw, u, v, ru, rv, rw'⟩
  | neg e i =>
    simp only [val, LExpr.eval, bind_ok_iff] at h
    obtain ⟨x, hx, h⟩ := h
    obtain ⟨u, lu, ru⟩ := i he hx
    exact ⟨u, negativeM_lab lu h, ru⟩
  | tr e i =>
    simp only [val, LExpr.eval, bind_ok_iff] at h
    obtain ⟨x, hx, h⟩ := h
    obtain ⟨u, lu, ru⟩ := i he hx
    exact ⟨_, transposeM_lab lu h, u, ru, rfl⟩
  | scale k d e i =>
    simp only [val, LExpr.eval, bind_ok_iff] at h
    obtain ⟨x, hx, h⟩ := h
    obtain ⟨u, lu, ru⟩ := i he hx
    obtain ⟨w, lw, rw'⟩ := H.mul (.num (d := d)) lu trivial (ru.ok (e := e) he) h
    exact ⟨w, lw, u, ru, rw'⟩
  | shift e k d i =>
    simp only [val, LExpr.eval, bind_ok_iff] at h
    obtain ⟨x, hx, h⟩ := h
    obtain ⟨u, lu, ru⟩ := i he hx
    obtain ⟨w, lw, rw'⟩ := H.add lu (.num (d := d)) (ru.ok (e := e) he) trivial h
    exact ⟨w, lw, u, ru, rw'⟩
  | inv e i =>
    simp only [val, LExpr.eval, bind_ok_iff] at h
    obtain ⟨x, hx, h⟩ := h
    obtain ⟨u, lu, ru⟩ := i he hx
    obtain ⟨w, lw, rw'⟩ := G.inv lu (ru.ok (e := e) he) h
    exact ⟨w, lw, u, ru, rw'.direct⟩
  | solve e g i j =>
    simp only [val, LExpr.eval, bind_ok_iff] at h
    obtain ⟨x, hx, y, hy, h⟩ := h
    obtain ⟨u, lu, ru⟩ := i he.1 hx
    obtain ⟨v, lv, rv⟩ := j he.2 hy
    obtain ⟨w, lw, rw'⟩ := G.solve lu lv (ru.ok he.1) (rv.ok he.2) h
    exact ⟨w, lw, u, v, ru, rv, rw'.direct⟩

theorem leaves_mono {P Q : TMat K D → Prop} (h : ∀ a, P a → Q a) {e : TExpr K D} (he : e.Leaves P) : e.Leaves Q := by
  induction e with
  | mat a => exact h a he
  | neg e i => exact i he
  | tr e i => exact i he
  | inv e i => exact i he
  | scale _ _ e i => exact i he
  | shift e _ _ i => exact i he
  | _ => rename_i i j; exact ⟨i he.1, j he.2⟩

end TExpr

/-- The operands of the expression are well formed. -/
def TExpr.Valid (e : TExpr K D) : Prop := e.Leaves fun a => a.mat.Valid

/-- No matrix in the expression is or contains a Zero. -/
def TExpr.NoZero (e : TExpr K D) : Prop := e.Leaves fun a => a.skel.NoZero

/-- An array or a number in the expression has data type `d`. -/
def TExpr.HasD (d : D) : TExpr K D → Prop
  | .mat a => a.HasD d
  | .add e g | .sub e g | .mul e g | .div e g | .matmul _ _ e g | .solve e g => e.HasD d ∨ g.HasD d
  | .neg e | .tr e | .inv e => e.HasD d
  | .scale _ d' e => d = d' ∨ e.HasD d
  | .shift e _ d' => e.HasD d ∨ d = d'

theorem TExpr.all_iff {S : D → Prop} (e : TExpr K D) : e.All S ↔ ∀ d, e.HasD d → S d := by
  have or {P Q : D → Prop} : ((∀ d, P d → S d) ∧ ∀ d, Q d → S d) ↔ ∀ d, P d ∨ Q d → S d :=
    ⟨fun h d hd => hd.elim (h.1 d) (h.2 d), fun h => ⟨fun d hd => h d (.inl hd), fun d hd => h d (.inr hd)⟩⟩
  have one {d : D} : S d ↔ ∀ d', d' = d → S d' := ⟨by rintro h _ rfl; exact h, fun h => h _ rfl⟩
  induction e with
  | mat a => exact Iff.rfl
  | neg e i => exact i
  | tr e i => exact i
  | inv e i => exact i
  | scale k d e i => exact (and_congr one i).trans or
  | shift e k d i => exact (and_congr i one).trans or
  | _ => rename_i i j; exact (and_congr i j).trans or

/-- The typed matrix `r` is a result of the expression. -/
def TEvals (c : Cfg K) (lin : LinEnv K) (p : D → D → D) (f : D) (e : TExpr K D) (r : TMat K D) : Prop :=
  LReturns c lin (e.val.eval c.code) r.mat ∧ e.Runs p true f r.skel

/-- The same for runs in which no number is an exact zero and no sum of two low-rank matrices vanishes. -/
def TEvalsPlain (c : Cfg K) (lin : LinEnv K) (p : D → D → D) (f : D) (e : TExpr K D) (r : TMat K D) : Prop :=
  LReturns c lin (e.val.eval c.code) r.mat ∧ e.Runs p false f r.skel

theorem TExpr.Valid.ok {e : TExpr K D} (h : e.Valid) : e.Leaves fun a => a.skel.Ok := TExpr.leaves_mono (fun _ h => TMat.ok_of_wf h.choose_spec) h

/-- **C59.** Every value of an expression over typed matrices is a typed matrix. -/
theorem C59_expression_covered {c : Cfg K} {lin : LinEnv K} (p : D → D → D) (f : D) {e : TExpr K D} {r : Mat K} (he : e.Valid) (h : LReturns c lin (e.val.eval c.code) r) :
    ∃ r' : TMat K D, r'.mat = r ∧ TEvals c lin p f e r' := by
  obtain ⟨m, n, hr⟩ := h
  obtain ⟨x, l, run⟩ := TExpr.cov (f := f) (fun h => by cases h) (ops_cov p (z := true) (fun h => by cases h) n)
    (lops_cov (env := c.code) (z := true) (lin := lin) (fun h => by cases h) (ops_cov p (z := true) (fun h => by cases h) n) m) he.ok hr
  obtain ⟨t, rfl, rfl⟩ := l.typed
  exact ⟨t, rfl, ⟨m, n, hr⟩, run⟩

/-- **C59.** The same without zeros. -/
theorem C59_expression_covered_plain [IsStrictOrderedRing K] {c : Cfg K} {lin : LinEnv K} (p : D → D → D) (f : D) {e : TExpr K D} {r : Mat K} (he : e.Valid)
    (hn : ∀ t, c.isNumber t = true → t.get (fun _ => 0) ≠ 0) (h : LReturnsPlain c lin (e.val.eval c.code) r) :
    ∃ r' : TMat K D, r'.mat = r ∧ TEvalsPlain c lin p f e r' := by
  have h' := h.returns (LExpr.LCalls_eval _ _)
  obtain ⟨m, n, hr⟩ := h
  obtain ⟨x, l, run⟩ := TExpr.cov (f := f) (env := c.code) (fun _ => hn) (ops_cov p (Cfg.noCancel_zeros hn) n)
    (lopsPlain_cov (env := c.code) (lin := lin) (fun _ => hn) (ops_cov p (Cfg.noCancel_zeros hn) n) m) he.ok hr
  obtain ⟨t, rfl, rfl⟩ := l.typed
  exact ⟨t, rfl, h', run⟩

/-- **C59.** No data type appears out of nowhere in the value of an expression. -/
theorem C59_expression_closed {c : Cfg K} {lin : LinEnv K} {p : D → D → D} {f : D} {e : TExpr K D} {r : TMat K D} (h : TEvals c lin p f e r) {S : D → Prop}
    (hS : ∀ x y, S x → S y → S (p x y)) (he : ∀ d, e.HasD d → S d) (d : D) (hd : r.HasD d) : S d :=
  r.all_iff.1 (h.2.all hS (e.all_iff.2 he)) d hd

/-- **C59.** An expression in single precision has a value in single precision. -/
theorem C59_expression_uniform {c : Cfg K} {lin : LinEnv K} {δ : DEnv K D} {d f : D} (hδ : δ.promote d d = d) {e : TExpr K D} {r : TMat K D} (he : e.Valid)
    (h : TEvals c lin δ.promote f e r) (h1 : ∀ d', e.HasD d' → d' = d) : (∀ d', r.HasD d' → d' = d) ∧ dtypeM δ r = .ok d := by
  have hc : ∀ d', r.HasD d' → d' = d := C59_expression_closed h (S := (· = d)) (by rintro x y rfl rfl; exact hδ) h1
  refine ⟨hc, ?_⟩
  obtain ⟨d', hd⟩ := (TExpr.Runs.ok he.ok h.2).dt δ.promote
  have := hd.all (S := (· = d)) (by rintro x y rfl rfl; exact hδ) (r.all_iff.2 hc)
  subst this
  exact (dtypeM_iff r).2 hd

/-- **C59.** Without zeros the value of an expression has the promotion of the data types of all arrays and numbers in the expression. -/
theorem C59_expression_promoted [SemilatticeSup D] {c : Cfg K} {lin : LinEnv K} {δ : DEnv K D} (hδ : δ.promote = (· ⊔ ·)) {f : D} {e : TExpr K D} {r : TMat K D} (he : e.Valid)
    (hn : e.NoZero) (h : TEvalsPlain c lin δ.promote f e r) : ∃ d, dtypeM δ r = .ok d ∧ IsLUB {d' | e.HasD d'} d := by
  obtain ⟨d, hd⟩ := (TExpr.Runs.ok he.ok h.2).dt δ.promote
  refine ⟨d, (dtypeM_iff r).2 hd, ?_⟩
  rw [hδ] at hd
  have hr := h.2
  rw [hδ] at hr
  have key : ∀ u, d ≤ u ↔ ∀ d', e.HasD d' → d' ≤ u := fun u => by
    rw [hd.le, ← e.all_iff]
    exact ⟨hr.back u hn, hr.all fun _ _ => sup_le⟩
  exact ⟨fun d' hd' => (key d).1 (le_refl d) d' hd', fun u hu => (key u).2 fun d' hd' => hu hd'⟩

/-! ### Cases meeting the hypotheses -/
namespace Ex

/-- The positive-definite Woodbury matrix with a Diagonal of the larger type. -/
def tP : TMat ℚ Bool := .wb ⟨true, v [1, 1]⟩ (.num ⟨false, m 2 1 [1, 2]⟩) (.num ⟨false, m 2 1 [1, 2]⟩) (.num ⟨false, m 1 1 [1/4]⟩)
/-- A positive-definite Dense matrix of the larger type. -/
def tA : TMat ℚ Bool := .dense ⟨true, m 2 2 [4, 2, 2, 5]⟩
/-- A Constant of the smaller type. -/
def tC : TMat ℚ Bool := .const ⟨false, scalarT 4⟩ 4 4
/-- `(tD + tR)⁻¹ / (2 * tW) - tPᵀ` with a 2 of the smaller type. -/
def tE : TExpr ℚ Bool := .sub (.div (.inv (.add (.mat tD) (.mat tR))) (.scale 2 false (.mat tW))) (.tr (.mat tP))

theorem tP_valid : tP.mat.Valid := ⟨[], P2_wf _⟩
theorem tA_valid : tA.mat.Valid := ⟨[], A2_wf _⟩
theorem tE_valid : tE.Valid := ⟨⟨⟨tD_valid, tR_valid⟩, tW_valid⟩, tP_valid⟩

/-- A call of linear algebra with a result in a plain run. -/
theorem lpromotes (f : Bool) {op : LDOp ℚ Bool} (ho : op.Valid) {n k : ℕ} (h : isOk (op.run (lopsPlain cfgA.code lin (ops cfgA.noCancel n) k)) = true) :
    ∃ r, TLReturnsPlain cfgA lin denv.promote f op r := by
  obtain ⟨r, hr⟩ := exists_of_isOk h
  obtain ⟨r', -, h'⟩ := C59_linalg_covered_plain denv.promote f ho (fun _ h => by cases h) ⟨k, n, hr⟩
  exact ⟨r', h'⟩

end Ex

example : ∃ r, TLReturnsPlain Ex.cfgA Ex.lin Ex.denv.promote true (.inv Ex.tP) r ∧ dtypeM Ex.denv r = .ok true := by
  obtain ⟨r, h⟩ := Ex.lpromotes true (op := .inv Ex.tP) Ex.tP_valid (n := 9) (k := 9) (by decide +kernel)
  obtain ⟨d, hd, hu⟩ := C59_linalg_promoted (op := .inv Ex.tP) rfl Ex.tP_valid ⟨⟨⟩, ⟨⟩, ⟨⟩⟩ h
  have : d = true := top_le_iff.1 <| hu.1 (show true ∈ _ from Or.inl rfl)
  exact ⟨r, h, this ▸ hd⟩

example : ∃ r, TLReturnsPlain Ex.cfgA Ex.lin Ex.denv.promote true (.chol Ex.tA) r ∧ dtypeM Ex.denv r = .ok true := by
  obtain ⟨r, h⟩ := Ex.lpromotes true (op := .chol Ex.tA) Ex.tA_valid (n := 9) (k := 9) (by decide +kernel)
  obtain ⟨d, hd, hu⟩ := C59_linalg_promoted (op := .chol Ex.tA) rfl Ex.tA_valid ⟨⟩ h
  have : d = true := top_le_iff.1 <| hu.1 (show true ∈ _ from rfl)
  exact ⟨r, h, this ▸ hd⟩

example : ∃ r, TLReturnsPlain Ex.cfgA Ex.lin Ex.denv.promote true (.solve Ex.tD Ex.tR) r ∧ dtypeM Ex.denv r = .ok true := by
  obtain ⟨r, h⟩ := Ex.lpromotes true (op := .solve Ex.tD Ex.tR) ⟨Ex.tD_valid, Ex.tR_valid⟩ (n := 9) (k := 9) (by decide +kernel)
  obtain ⟨d, hd, hu⟩ := C59_linalg_promoted (op := .solve Ex.tD Ex.tR) rfl ⟨Ex.tD_valid, Ex.tR_valid⟩ ⟨⟨⟩, ⟨⟩, ⟨⟩, ⟨⟩⟩ h
  have : d = true := top_le_iff.1 <| hu.1 (show true ∈ _ from Or.inr (.inr (.inl rfl)))
  exact ⟨r, h, this ▸ hd⟩

example : ∃ r, TEvalsPlain Ex.cfgA Ex.lin Ex.denv.promote true Ex.tE r ∧ dtypeM Ex.denv r = .ok true := by
  obtain ⟨r, hr⟩ := Ex.exists_of_isOk (x := Ex.tE.val.eval Ex.cfgA.code (ops Ex.cfgA.noCancel 9) (lopsPlain Ex.cfgA.code Ex.lin (ops Ex.cfgA.noCancel 9) 9)) (by decide +kernel)
  obtain ⟨r', -, h⟩ := C59_expression_covered_plain Ex.denv.promote true Ex.tE_valid (fun _ h => by cases h) ⟨9, 9, hr⟩
  obtain ⟨d, hd, hu⟩ := C59_expression_promoted rfl Ex.tE_valid ⟨⟨⟨⟨⟩, ⟨⟩, ⟨⟩, ⟨⟩⟩, ⟨⟩, ⟨⟩, ⟨⟩⟩, ⟨⟩, ⟨⟩, ⟨⟩⟩ h
  have : d = true := top_le_iff.1 <| hu.1 (show true ∈ _ from Or.inr (.inl rfl))
  exact ⟨r', h, this ▸ hd⟩

example : ∃ r, TLogdet Ex.cfgA Ex.lin Ex.denv.promote false true false Ex.tA r ∧ r.dt = true := by
  obtain ⟨r, hr⟩ := Ex.exists_of_isOk (x := (lopsPlain Ex.cfgA.code Ex.lin (ops Ex.cfgA.noCancel 9) 9).logdet Ex.tA.mat) (by decide +kernel)
  obtain ⟨d, h⟩ := C59_logdet_covered_plain Ex.denv.promote true Ex.tA_valid (fun _ h => by cases h) ⟨9, 9, hr⟩
  exact ⟨_, h, C59_logdet_promoted rfl (a := Ex.tA) ⟨⟩ h rfl⟩

/-- **C59, finding.** The Cholesky factor of a Constant in single precision is in double precision, if the square root of an integer is. -/
theorem C59_cholesky_double : ∃ r, TLReturns Ex.cfgA Ex.lin Ex.denv.promote true (.chol Ex.tC) r ∧ dtypeM Ex.denv Ex.tC = .ok false ∧ dtypeM Ex.denv r = .ok true := by
  obtain ⟨r, hr⟩ := Ex.exists_of_isOk (x := (LDOp.chol Ex.tC).run (lops Ex.cfgA.code Ex.lin (ops Ex.cfgA.code 9) 9)) (by decide +kernel)
  obtain ⟨r', -, h⟩ := C59_linalg_covered Ex.denv.promote true (op := .chol Ex.tC) ⟨[], Fits.nil _⟩ ⟨9, 9, hr⟩
  refine ⟨r', h, rfl, (dtypeM_iff r').2 ?_⟩
  rw [C59_cholesky_constant h.2]
  exact rfl

end Verif
