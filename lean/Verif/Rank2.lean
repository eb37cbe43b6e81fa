/-
C58: low rank stays low.  The number of factors of a LowRank or Woodbury result is bounded by the numbers of factors of the operands, whatever the sizes of the matrices;
and the `rank` a LowRank matrix reports bounds its rank.
-/
import Verif.Rank
import Verif.Expr
import Verif.MatRep
import Verif.ExLin
import Verif.Classes
import Mathlib.LinearAlgebra.Matrix.Rank

set_option linter.unusedSectionVars false
set_option linter.unusedVariables false

namespace Verif

variable {K : Type} [Field K] [LinearOrder K]

/-- `a.rank` of a LowRank matrix, `lowrank.py` 86-90 (the default middle factor is the identity with as many rows as the left factor has columns). -/
def rankAttr : Mat K → E ℕ
  | .lr _ _ m => do
    let s ← shapeMatrix m
    return min s.1 s.2
  | _ => .error .attribute

/-! ### The operations -/

/-- C58.  `a + b`. -/
theorem C58_add (c : Cfg K) {a b r : Mat K} {p q p' q' : ℕ} (ha : a.factorsLe p q) (hb : b.factorsLe p' q') (h : Returns c (fun B => B.add a b) r) :
    r.factorsLe (p + p') (q + q') := by
  obtain ⟨n, h⟩ := h
  exact ops_addFactors c n ha hb r h

/-- C58.  `a * b`. -/
theorem C58_multiply (c : Cfg K) {a b r : Mat K} {p q p' q' : ℕ} (ha : a.factorsLe p q) (hb : b.factorsLe p' q') (h : Returns c (fun B => B.mul a b) r) :
    r.factorsLe (p * p') (q * q') := by
  obtain ⟨n, h⟩ := h
  exact ops_mulFactors c n ha hb r h

/-- C58.  `-a`. -/
theorem C58_negative {a r : Mat K} {p q : ℕ} (ha : a.factorsLe p q) (h : negativeM a = .ok r) : r.factorsLe p q := negativeM_factors ha r h

/-- C58.  `a.T`. -/
theorem C58_transpose {a r : Mat K} {p q : ℕ} (ha : a.factorsLe p q) (h : transposeM a = .ok r) : r.factorsLe q p := transposeM_factors ha r h

theorem subtractM_factors (c : Cfg K) (n : ℕ) {a b : Mat K} {p q p' q' : ℕ} (ha : a.factorsLe p q) (hb : b.factorsLe p' q') :
    Post (Mat.factorsLe (p + p') (q + q')) (subtractM c.code (ops c.code n) a b) := by
  unfold subtractM
  split
  · rename_i s t
    intro x hx
    obtain ⟨v, hv, hx⟩ := bind_ok_iff.1 hx
    cases hx
    unfold nZip at hv
    split_ifs at hv
    cases hv
    intro h0
    have h0 : (bsh s.sh t.sh).length = 0 := h0
    rw [length_bsh] at h0
    have := ha (show s.sh.length = 0 by omega)
    exact ⟨by omega, by omega⟩
  · exact (negativeM_factors hb.convert).bind fun x hx => ops_addFactors c n ha.convert hx

/-- C58.  `a - b`. -/
theorem C58_subtract (c : Cfg K) {a b r : Mat K} {p q p' q' : ℕ} (ha : a.factorsLe p q) (hb : b.factorsLe p' q')
    (h : Returns c (fun B => subtractM c.code B a b) r) : r.factorsLe (p + p') (q + q') := by
  obtain ⟨n, h⟩ := h
  exact subtractM_factors c n ha hb r h

/-- C58.  `a @ b`, with transposes.  What an operand contributes depends on its class: see `mmLeft`. -/
theorem C58_matmul (c : Cfg K) {a b r : Mat K} {p q p' q' : ℕ} (ta tb : Bool) (ha : a.factorsLe p q) (hb : b.factorsLe p' q')
    (h : Returns c (fun B => B.matmul ta tb a b) r) :
    r.factorsLe (mmLeft (classOf c a) (classOf c b) (if ta then q else p) (if tb then q' else p')) (mmRight (classOf c a) (classOf c b) (if ta then p else q) (if tb then p' else q')) := by
  obtain ⟨n, h⟩ := h
  rw [← classOf_eq, ← classOf_eq]
  exact ops_mmFactors c n ta tb ha hb r h

/-- C58.  A LowRank matrix times anything but a Woodbury matrix has at most the left factors of the LowRank matrix. -/
theorem C58_lowrank_matmul (c : Cfg K) {al ar am b r : Mat K} {p q p' q' : ℕ} (ha : (Mat.lr al ar am).factorsLe p q) (hb : b.factorsLe p' q') (hk : classOf c b ≠ .wb)
    (h : Returns c (fun B => B.matmul false false (.lr al ar am) b) r) : r.factorsLe p (max q q') := by
  refine (C58_matmul c false false ha hb h).mono ?_ ?_
  · show mmLeft .lr (classOf c b) p p' ≤ p
    revert hk
    cases classOf c b <;> simp [mmLeft]
  · show mmLeft (classOf c b) .lr q' q ≤ max q q'
    revert hk
    cases classOf c b <;> simp [mmLeft]

/-- C58.  A chain of two LowRank matrices has the left factors of the first and the right factors of the second. -/
theorem C58_lowrank_chain (c : Cfg K) {al ar am bl br bm r : Mat K} {p q p' q' : ℕ} (ha : (Mat.lr al ar am).factorsLe p q) (hb : (Mat.lr bl br bm).factorsLe p' q')
    (h : Returns c (fun B => B.matmul false false (.lr al ar am) (.lr bl br bm)) r) : r.factorsLe p q' := C58_matmul c false false ha hb h

/-! ### Expressions -/

/-- The numbers of left and right factors an expression may lead to: leaves have what they have, sums add, element-wise products multiply, scaling keeps, shifting by a number adds one
factor, a product has at most `2 p + p'` left and `q + 2 q'` right factors. -/
inductive Expr.FactorsLe : Expr K → ℕ → ℕ → Prop
  | mat {a p q} : a.factorsLe p q → FactorsLe (.mat a) p q
  | add {e f p q p' q'} : FactorsLe e p q → FactorsLe f p' q' → FactorsLe (.add e f) (p + p') (q + q')
  | sub {e f p q p' q'} : FactorsLe e p q → FactorsLe f p' q' → FactorsLe (.sub e f) (p + p') (q + q')
  | mul {e f p q p' q'} : FactorsLe e p q → FactorsLe f p' q' → FactorsLe (.mul e f) (p * p') (q * q')
  | matmul {ta tb e f p q p' q'} : FactorsLe e p q → FactorsLe f p' q' →
      FactorsLe (.matmul ta tb e f) (2 * (if ta then q else p) + if tb then q' else p') ((if ta then p else q) + 2 * if tb then p' else q')
  | neg {e p q} : FactorsLe e p q → FactorsLe (.neg e) p q
  | tr {e p q} : FactorsLe e p q → FactorsLe (.tr e) q p
  | scale {x e p q} : FactorsLe e p q → FactorsLe (.scale x e) p q
  | shift {e x p q} : FactorsLe e p q → FactorsLe (.shift e x) (p + 1) (q + 1)

theorem scalar_factors (x : K) : (Mat.num (scalarT x)).factorsLe 1 1 := fun _ => ⟨le_refl _, le_refl _⟩

theorem mmLeft_le (k k' : Kind) (p p' : ℕ) : mmLeft k k' p p' ≤ 2 * p + p' := by
  cases k <;> cases k' <;> simp only [mmLeft] <;> omega

/-- C58.  The result of an expression of any size: at most the factors the expression accounts for. -/
theorem C58_expression (c : Cfg K) {e : Expr K} {p q : ℕ} {m : Mat K} (he : e.FactorsLe p q) (h : Returns c (e.eval c.code) m) : m.factorsLe p q := by
  obtain ⟨n, h⟩ := h
  induction he generalizing m with
  | mat ha => cases h; exact ha
  | add _ _ i1 i2 =>
    obtain ⟨x, hx, h⟩ := bind_ok_iff.1 h
    obtain ⟨y, hy, h⟩ := bind_ok_iff.1 h
    exact ops_addFactors c n (i1 hx) (i2 hy) _ h
  | sub _ _ i1 i2 =>
    obtain ⟨x, hx, h⟩ := bind_ok_iff.1 h
    obtain ⟨y, hy, h⟩ := bind_ok_iff.1 h
    exact subtractM_factors c n (i1 hx) (i2 hy) _ h
  | mul _ _ i1 i2 =>
    obtain ⟨x, hx, h⟩ := bind_ok_iff.1 h
    obtain ⟨y, hy, h⟩ := bind_ok_iff.1 h
    exact ops_mulFactors c n (i1 hx) (i2 hy) _ h
  | @matmul ta tb e f p q p' q' _ _ i1 i2 =>
    obtain ⟨x, hx, h⟩ := bind_ok_iff.1 h
    obtain ⟨y, hy, h⟩ := bind_ok_iff.1 h
    refine (ops_mmFactors c n ta tb (i1 hx) (i2 hy) _ h).mono (mmLeft_le _ _ _ _) ?_
    refine (mmLeft_le _ _ _ _).trans ?_
    omega
  | neg _ i =>
    obtain ⟨x, hx, h⟩ := bind_ok_iff.1 h
    exact negativeM_factors (i hx) _ h
  | tr _ i =>
    obtain ⟨x, hx, h⟩ := bind_ok_iff.1 h
    exact transposeM_factors (i hx) _ h
  | scale _ i =>
    obtain ⟨x, hx, h⟩ := bind_ok_iff.1 h
    have := ops_mulFactors c n (scalar_factors _) (i hx) _ h
    rwa [one_mul, one_mul] at this
  | shift _ i =>
    obtain ⟨x, hx, h⟩ := bind_ok_iff.1 h
    exact ops_addFactors c n (i hx) (scalar_factors _) _ h

/-! ### Shared factors -/

section
variable [IsStrictOrderedRing K]

/-- C58.  Adding two LowRank matrices with the same left factor does not add left factors; with the same right factor no right factors. -/
theorem C58_add_shared (c : Cfg K) (ht : 0 < c.tol) {al ar am bl br bm r : Mat K} {t u t' u' : Tensor K} (a1 : al.IsArray t) (a2 : ar.IsArray u) (b1 : bl.IsArray t') (b2 : br.IsArray u')
    (h : Returns c (fun B => B.add (.lr al ar am) (.lr bl br bm)) r) :
    (SameFirst t t' → t.rows ≠ 0 → r.factorsLe t.cols (u.cols + u'.cols)) ∧ (SameFirst u u' → u.rows ≠ 0 → r.factorsLe (t.cols + t'.cols) u.cols) ∧
    (SameFirst t t' → SameFirst u u' → t.rows ≠ 0 → u.rows ≠ 0 → r.factorsLe t.cols u.cols) := by
  obtain ⟨n, h⟩ := h
  cases n with
  | zero => cases h
  | succ n =>
    have h : addLRLR c.code (ops c.code n) al ar am bl br bm = .ok r := h
    have sm : ∀ {x y : Tensor K}, SameFirst x y → x.rows ≠ 0 → ∀ L, align c.code x y = .ok L → L.aJoin.length ≤ x.cols := by
      intro x y hs hr L hL
      obtain ⟨l, hl, rfl⟩ := align_same ht hs hr hL
      simp only [List.length_map]
      rw [hl.length_eq, List.length_range]
    have df : ∀ {x y : Tensor K}, ∀ L, align c.code x y = .ok L → L.aJoin.length ≤ x.cols + y.cols := fun L hL => (align_length hL).2
    exact ⟨fun hs hr => addLRLR_bound a1 a2 b1 b2 (sm hs hr) df r h, fun hs hr => addLRLR_bound a1 a2 b1 b2 df (sm hs hr) r h,
      fun hs hs' hr hr' => addLRLR_bound a1 a2 b1 b2 (sm hs hr) (sm hs' hr') r h⟩

/-! ### Inverses -/

theorem middle_flat {s : ℕ} {a : Mat K} (h : a.middle s) : a.flatKind := by
  rcases h with ⟨d, rfl, _⟩ | ⟨t, h, _⟩
  · exact .inr (.inr (.inl rfl))
  · exact h.isArray.flatKind

theorem subtractLR_factors (c : Cfg K) (n : ℕ) {e : Tensor K} {l r k x y z : Mat K} {t u : Tensor K} {s p q : ℕ} (he : 1 ≤ e.rank) (hl : l.Holds t) (hr : r.Holds u) (hk : k.middle s)
    (tp : t.cols ≤ p) (uq : u.cols ≤ q) (hx : (ops c.code n).matmul false false (.diag e) l = .ok x) (hy : (ops c.code n).matmul false false (.diag e) r = .ok y) (hz : mkLR x y k = .ok z) :
    Post (Mat.factorsLe p q) (subtractM c.code (ops c.code n) (.diag e) z) := by
  obtain ⟨v, hv, ev⟩ := diag_mm_holds he hl hx
  obtain ⟨w, hw, ew⟩ := diag_mm_holds he hr hy
  have ev : v.cols = t.cols := ev
  have ew : w.cols = u.cols := ew
  have := mkLR_sides (p := p) (q := q) hv.isArray.arrKind hw.isArray.arrKind (middle_flat hk) hv.isArray.shapeMatrix hw.isArray.shapeMatrix (by omega) (by omega) z hz
  exact (subtractM_factors c n (a := .diag e) (p := 0) (q := 0) True.intro this).mono fun r hr => hr.mono (by omega) (by omega)

/-- C58.  The inverse of a Woodbury matrix has at most its factors, and so has the inverse for positive-definite matrices. -/
theorem C58_inv (c : Cfg K) {lin : LinEnv K} (hL : lin.Lawful) {d : Tensor K} {l r k x : Mat K} {t u : Tensor K} {s : ℕ} (hs : (Mat.wb d l r k).core s) (hl : l.Holds t) (hr : r.Holds u)
    (h : LReturns c lin (fun _ L => L.inv (.wb d l r k)) x ∨ LReturns c lin (fun _ L => L.pdInv (.wb d l r k)) x) : x.factorsLe t.cols u.cols := by
  have hg : lin.AgreeUpTo s lin := ⟨fun _ _ => rfl, fun _ _ => rfl, fun _ _ _ => rfl, fun _ _ _ _ => rfl, fun _ _ => rfl, fun _ _ => rfl, rfl, rfl⟩
  rcases h with ⟨m, n, h⟩ | ⟨m, n, h⟩
  · cases m with
    | zero => cases h
    | succ m =>
      have ih := lops_backend (env := c.code) (s := s) hL hg n m
      obtain ⟨di, h1, h⟩ := bind_ok_iff.1 (show invWB c.code (ops c.code n) (lops c.code lin (ops c.code n) m) d l r k = .ok x from h)
      obtain ⟨e, rfl, he⟩ := ih.invD d di h1
      obtain ⟨dl, h2, h⟩ := bind_ok_iff.1 h
      obtain ⟨dr, h3, h⟩ := bind_ok_iff.1 h
      obtain ⟨sc, h4, h⟩ := bind_ok_iff.1 h
      obtain ⟨si, h5, h⟩ := bind_ok_iff.1 h
      obtain ⟨z, h6, h⟩ := bind_ok_iff.1 h
      obtain ⟨v, hv, hvs⟩ := (schur_backend ih hs).2 sc h4
      exact subtractLR_factors c n he hl hr (ih.invM sc si (.inr ⟨v, hv, hvs⟩) h5) (le_refl _) (le_refl _) h2 h3 h6 x h
  · cases m with
    | zero => cases h
    | succ m =>
      have ih := lops_backend (env := c.code) (s := s) hL hg n m
      obtain ⟨di, h1, h⟩ := bind_ok_iff.1 (show pdInvWB c.code (ops c.code n) (lops c.code lin (ops c.code n) m) d l r k = .ok x from h)
      obtain ⟨e, rfl, he⟩ := ih.invD d di h1
      obtain ⟨dl, h2, h⟩ := bind_ok_iff.1 h
      obtain ⟨dr, h3, h⟩ := bind_ok_iff.1 h
      obtain ⟨sc, h4, h⟩ := bind_ok_iff.1 h
      obtain ⟨si, h5, h⟩ := bind_ok_iff.1 h
      obtain ⟨z, h6, h⟩ := bind_ok_iff.1 h
      obtain ⟨v, hv, hvs⟩ := (pdSchur_backend ih hs).2 sc h4
      exact subtractLR_factors c n he hl hr (ih.pdInvM sc si (.inr ⟨v, hv, hvs⟩) h5) (le_refl _) (le_refl _) h2 h3 h6 x h

end

/-! ### The rank -/

/-- C58.  The rank of every batch element of a LowRank matrix is at most the `rank` it reports. -/
theorem C58_rank {l r m : Mat K} {k : ℕ} (ha : (Mat.lr l r m).Valid) (hk : rankAttr (.lr l r m) = .ok k) {β : Idx} (hβ : InRange (den (.lr l r m)).bt β) :
    (mxOf (den (.lr l r m)) β (den (.lr l r m)).rows (den (.lr l r m)).cols).rank ≤ k := by
  obtain ⟨s, hs, hk⟩ := bind_ok_iff.1 hk
  cases hk
  obtain ⟨⟨wl, wr, wm⟩, ⟨rl, rr, rm⟩, e1, e2⟩ := ha.own
  rw [wm.shapeMatrix] at hs
  cases hs
  have gl := MRep.of (⟨rl, wl.fits⟩ : Good _ (den l)) rfl e1
  have gr := MRep.of (⟨rr, wr.fits⟩ : Good _ (den r)) rfl e2
  have gm := MRep.of (⟨rm, wm.fits⟩ : Good _ (den m)) rfl rfl
  have g := (gl.mm gm).mm gr.tr
  have e : mxOf (den (.lr l r m)) β (den (.lr l r m)).rows (den (.lr l r m)).cols = _ := g.mxOf hβ
  rw [e]
  have h1 : (mxOf (den m) β (den m).rows (den m).cols).rank ≤ min (den m).rows (den m).cols :=
    le_min ((Matrix.rank_le_card_height _).trans_eq (Fintype.card_fin _)) ((Matrix.rank_le_card_width _).trans_eq (Fintype.card_fin _))
  exact (Matrix.rank_mul_le_left _ _).trans ((Matrix.rank_mul_le_right _ _).trans h1)

/-- C58.  With at most `p` left and `q` right factors the reported rank is at most `min p q`, and so is the rank of every batch element. -/
theorem C58_rank_factors {l r m : Mat K} {p q : ℕ} (ha : (Mat.lr l r m).Valid) (hf : (Mat.lr l r m).factorsLe p q) :
    (∃ k ≤ min p q, rankAttr (.lr l r m) = .ok k) ∧
    ∀ β, InRange (den (.lr l r m)).bt β → (mxOf (den (.lr l r m)) β (den (.lr l r m)).rows (den (.lr l r m)).cols).rank ≤ min p q := by
  obtain ⟨p', q', hf, h1, h2⟩ := hf
  have h : rankAttr (.lr l r m) = .ok (min p' q') := by
    obtain ⟨_, _, h⟩ := hf.shapes
    simp only [rankAttr]
    rw [h]; rfl
  exact ⟨⟨_, min_le_min h1 h2, h⟩, fun β hβ => (C58_rank ha h hβ).trans (min_le_min h1 h2)⟩

/-! ### Cases meeting the hypotheses -/

namespace Ex

theorem R_factors : R.factorsLe 1 1 := ⟨1, 1, ⟨_, _, .inl ⟨rfl, by decide⟩, .inl ⟨rfl, by decide⟩, rfl, rfl, .inl ⟨_, .inl ⟨rfl, by decide⟩, rfl, rfl⟩⟩, le_refl _, le_refl _⟩
theorem W_factors : W.factorsLe 1 1 := ⟨1, 1, ⟨_, _, .inl ⟨rfl, by decide⟩, .inl ⟨rfl, by decide⟩, rfl, rfl, .inl ⟨_, .inl ⟨rfl, by decide⟩, rfl, rfl⟩⟩, le_refl _, le_refl _⟩

/-- Another LowRank matrix, with the left factor of `R`. -/
def R1 : Mat ℚ := .lr (.num (m 2 1 [1, 2])) (.num (m 2 1 [5, 7])) (.num (m 1 1 [3]))
theorem R1_factors : R1.factorsLe 1 1 := ⟨1, 1, ⟨_, _, .inl ⟨rfl, by decide⟩, .inl ⟨rfl, by decide⟩, rfl, rfl, .inl ⟨_, .inl ⟨rfl, by decide⟩, rfl, rfl⟩⟩, le_refl _, le_refl _⟩

end Ex

example : ∃ r, Returns Ex.cfg (fun B => B.add Ex.R Ex.R1) r ∧ r.kind = some .lr ∧ r.factorsLe 1 2 := by
  obtain ⟨r, hr, hk⟩ : ∃ r, Returns Ex.cfg (fun B => B.add Ex.R Ex.R1) r ∧ r.kind = some .lr := Ex.kindIs (n := 6) (by decide +kernel)
  exact ⟨r, hr, hk, (C58_add_shared Ex.cfg (by norm_num [Ex.cfg]) (.inl ⟨rfl, by decide⟩) (.inl ⟨rfl, by decide⟩) (.inl ⟨rfl, by decide⟩) (.inl ⟨rfl, by decide⟩) hr).1
    ⟨rfl, rfl, fun _ _ _ _ => rfl⟩ (by decide)⟩
example : ∃ r, Returns Ex.cfg (fun B => B.add Ex.W Ex.R1) r ∧ r.kind = some .wb ∧ r.factorsLe 2 2 := by
  obtain ⟨r, hr, hk⟩ : ∃ r, Returns Ex.cfg (fun B => B.add Ex.W Ex.R1) r ∧ r.kind = some .wb := Ex.kindIs (n := 8) (by decide +kernel)
  exact ⟨r, hr, hk, C58_add Ex.cfg Ex.W_factors Ex.R1_factors hr⟩
example : ∃ r, Returns Ex.cfg (fun B => B.mul Ex.R Ex.R1) r ∧ r.kind = some .lr ∧ r.factorsLe 1 1 := by
  obtain ⟨r, hr, hk⟩ : ∃ r, Returns Ex.cfg (fun B => B.mul Ex.R Ex.R1) r ∧ r.kind = some .lr := Ex.kindIs (n := 8) (by decide +kernel)
  exact ⟨r, hr, hk, C58_multiply Ex.cfg Ex.R_factors Ex.R1_factors hr⟩
example : ∃ r, Returns Ex.cfg (fun B => B.matmul false false Ex.R Ex.R1) r ∧ r.kind = some .lr ∧ r.factorsLe 1 1 := by
  obtain ⟨r, hr, hk⟩ : ∃ r, Returns Ex.cfg (fun B => B.matmul false false Ex.R Ex.R1) r ∧ r.kind = some .lr := Ex.kindIs (n := 8) (by decide +kernel)
  exact ⟨r, hr, hk, C58_lowrank_chain Ex.cfg Ex.R_factors Ex.R1_factors hr⟩
example : ∃ r, Returns Ex.cfg (fun B => B.matmul false false Ex.W Ex.W) r ∧ r.kind = some .wb ∧ r.factorsLe 3 3 := by
  obtain ⟨r, hr, hk⟩ : ∃ r, Returns Ex.cfg (fun B => B.matmul false false Ex.W Ex.W) r ∧ r.kind = some .wb := Ex.kindIs (n := 10) (by decide +kernel)
  exact ⟨r, hr, hk, C58_matmul Ex.cfg false false Ex.W_factors Ex.W_factors hr⟩
example : ∃ r, LReturns Ex.cfg Ex.lin (fun _ L => L.inv Ex.P2) r ∧ r.kind = some .wb ∧ r.factorsLe 1 1 := by
  obtain ⟨r, hr, _⟩ := Ex.lmeets (f := fun _ L => L.inv Ex.P2) (LCalls.inv _) (n := 8) (m := 8) (by decide +kernel)
  exact ⟨r, hr, C51_inv _ _ hr, C58_inv Ex.cfg Ex.lin_lawful Ex.P2_core ⟨.inl rfl, by decide⟩ ⟨.inl rfl, by decide⟩ (.inl hr)⟩
example : rankAttr Ex.R = .ok 1 ∧ Ex.R.Valid := ⟨rfl, [], Ex.R_wf _⟩

end Verif
