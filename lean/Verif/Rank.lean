/-
Low rank stays low (C58): how many factors the results of the operations have.
-/
import Verif.Backend
import Verif.Cancel

set_option linter.unusedSectionVars false
set_option linter.unusedVariables false

namespace Verif

variable {K : Type} [Field K] [LinearOrder K]

/-- The matrix is an array `t` with rows and columns, or `Dense(t)`. -/
def Mat.IsArray (a : Mat K) (t : Tensor K) : Prop := (a = .num t ∧ 2 ≤ t.rank) ∨ a = .dense t

/-- The low-rank part `left middle rightᵀ` has `p` left and `q` right factors: the left factor is an array (or Dense) with `p` columns, the right factor one with
`q` columns, and the middle factor is `p × q`: an array (or Dense), a Diagonal, or Zero. -/
def HasFactors (l r m : Mat K) (p q : ℕ) : Prop :=
  ∃ t u, l.IsArray t ∧ r.IsArray u ∧ t.cols = p ∧ u.cols = q ∧
    ((∃ v, m.IsArray v ∧ v.rows = p ∧ v.cols = q) ∨ (∃ d, m = .diag d ∧ d.cols = p ∧ d.cols = q) ∨ ∃ bt, m = .zero bt p q)

/-- If the matrix is a LowRank or a Woodbury, it has at most `p` left and `q` right factors.  A Constant, and a number, counts as one factor. -/
def Mat.factorsLe (p q : ℕ) : Mat K → Prop
  | .num t => t.rank = 0 → 1 ≤ p ∧ 1 ≤ q
  | .const _ _ _ => 1 ≤ p ∧ 1 ≤ q
  | .lr l r m => ∃ p' q', HasFactors l r m p' q' ∧ p' ≤ p ∧ q' ≤ q
  | .wb _ l r m => ∃ p' q', HasFactors l r m p' q' ∧ p' ≤ p ∧ q' ≤ q
  | .lt t => t.rank ≠ 0
  | .ut t => t.rank ≠ 0
  | _ => True

theorem Mat.factorsLe.mono {p q p' q' : ℕ} {a : Mat K} (h : a.factorsLe p q) (hp : p ≤ p') (hq : q ≤ q') : a.factorsLe p' q' := by
  cases a with
  | num t => exact fun h0 => ⟨(h h0).1.trans hp, (h h0).2.trans hq⟩
  | const t r c => exact ⟨h.1.trans hp, h.2.trans hq⟩
  | lr l r m => obtain ⟨x, y, h, h1, h2⟩ := h; exact ⟨x, y, h, h1.trans hp, h2.trans hq⟩
  | wb d l r m => obtain ⟨x, y, h, h1, h2⟩ := h; exact ⟨x, y, h, h1.trans hp, h2.trans hq⟩
  | lt t => exact h
  | ut t => exact h
  | _ => trivial

theorem Mat.factorsLe.tri {p q : ℕ} {a : Mat K} (h : a.factorsLe p q) : TriRk a := by
  cases a <;> first | exact h | exact True.intro

theorem Mat.factorsLe.convert {env : Env K} {p q : ℕ} {a : Mat K} (h : a.factorsLe p q) : (convertAM env a).factorsLe p q := by
  cases a with
  | num t =>
    simp only [convertAM]
    split_ifs with h0 h1
    · trivial
    · exact h h0
    · trivial
  | _ => exact h

theorem Mat.IsArray.shapeMatrix {a : Mat K} {t : Tensor K} (h : a.IsArray t) : shapeMatrix a = .ok (t.rows, t.cols) := by
  rcases h with ⟨rfl, h⟩ | rfl
  · have : t.rank ≠ 1 := by omega
    simp [Verif.shapeMatrix, shp, this]
  · rfl

theorem Mat.Holds.isArray {a : Mat K} {t : Tensor K} (h : a.Holds t) : a.IsArray t := by
  obtain ⟨rfl | rfl, h⟩ := h
  · exact .inl ⟨rfl, h⟩
  · exact .inr rfl

/-- Arrays, Dense, Diagonal and Zero. -/
def Mat.flatKind (a : Mat K) : Prop := a.kind = none ∨ a.kind = some .dense ∨ a.kind = some .diag ∨ a.kind = some .zero
/-- Arrays and Dense. -/
def Mat.arrKind (a : Mat K) : Prop := a.kind = none ∨ a.kind = some .dense

theorem Mat.IsArray.arrKind {a : Mat K} {t : Tensor K} (h : a.IsArray t) : a.arrKind := by
  rcases h with ⟨rfl, h⟩ | rfl
  · exact .inl rfl
  · exact .inr rfl

theorem Mat.arrKind.isArray {a : Mat K} (h : a.arrKind) (h2 : assertMatrix a = .ok ()) : ∃ t, a.IsArray t := by
  rcases h with h | h <;> cases a <;> simp [Mat.kind] at h
  · rename_i t
    refine ⟨t, .inl ⟨rfl, ?_⟩⟩
    simpa [assertMatrix, rankM, shape, Tensor.rank] using h2
  · exact ⟨_, .inr rfl⟩

/-- What the constructor of LowRank checks. -/
theorem mkLR_checks {l r m x : Mat K} (h : mkLR l r m = .ok x) : x = .lr l r m ∧ assertMatrix l = .ok () ∧ assertMatrix r = .ok () ∧ assertMatrix m = .ok () ∧
    ∃ a b c : ℕ × ℕ, shapeMatrix l = .ok a ∧ shapeMatrix r = .ok b ∧ shapeMatrix m = .ok c ∧ a.2 = c.1 ∧ b.2 = c.2 := by
  simp only [mkLR, bind_ok_iff, guardE_ok, pure_eq_ok] at h
  obtain ⟨_, h1, _, h2, a, ha, c, hc, _, e1, _, h3, b, hb, c', hc', _, e2, rfl⟩ := h
  rw [hc] at hc'
  cases hc'
  exact ⟨rfl, h1, h3, h2, a, b, c, ha, hb, hc, e1, e2⟩

theorem mkLR_factors {l r m x : Mat K} (hl : l.arrKind) (hr : r.arrKind) (hm : m.flatKind) (h : mkLR l r m = .ok x) :
    x = .lr l r m ∧ ∃ p q, HasFactors l r m p q ∧ (∃ i, shapeMatrix l = .ok (i, p)) ∧ (∃ j, shapeMatrix r = .ok (j, q)) ∧ shapeMatrix m = .ok (p, q) := by
  obtain ⟨rfl, h1, h2, h3, a, b, c, ha, hb, hc, e1, e2⟩ := mkLR_checks h
  obtain ⟨t, ht⟩ := hl.isArray h1
  obtain ⟨u, hu⟩ := hr.isArray h2
  rw [ht.shapeMatrix] at ha
  rw [hu.shapeMatrix] at hb
  cases ha; cases hb
  obtain ⟨c1, c2⟩ := c
  simp only at e1 e2
  refine ⟨rfl, c1, c2, ⟨t, u, ht, hu, e1, e2, ?_⟩, ⟨t.rows, by rw [ht.shapeMatrix, e1]⟩, ⟨u.rows, by rw [hu.shapeMatrix, e2]⟩, hc⟩
  rcases hm with hm | hm | hm | hm
  · obtain ⟨v, hv⟩ := Mat.arrKind.isArray (.inl hm) h3
    rw [hv.shapeMatrix] at hc; cases hc
    exact .inl ⟨v, hv, rfl, rfl⟩
  · obtain ⟨v, hv⟩ := Mat.arrKind.isArray (.inr hm) h3
    rw [hv.shapeMatrix] at hc; cases hc
    exact .inl ⟨v, hv, rfl, rfl⟩
  · cases m <;> simp [Mat.kind] at hm
    rename_i d
    simp only [Verif.shapeMatrix, shp, Except.ok.injEq, Prod.mk.injEq] at hc
    exact .inr (.inl ⟨d, rfl, hc.1, hc.2⟩)
  · cases m <;> simp [Mat.kind] at hm
    simp only [Verif.shapeMatrix, shp, Except.ok.injEq, Prod.mk.injEq] at hc
    obtain ⟨rfl, rfl⟩ := hc
    exact .inr (.inr ⟨_, rfl⟩)

theorem HasFactors.kinds {l r m : Mat K} {p q : ℕ} (h : HasFactors l r m p q) : l.arrKind ∧ r.arrKind ∧ m.flatKind := by
  obtain ⟨t, u, h1, h2, _, _, h3⟩ := h
  refine ⟨h1.arrKind, h2.arrKind, ?_⟩
  rcases h3 with ⟨v, hv, _⟩ | ⟨d, rfl, _⟩ | ⟨bt, rfl⟩
  · rcases hv.arrKind with h | h
    · exact .inl h
    · exact .inr (.inl h)
  · exact .inr (.inr (.inl rfl))
  · exact .inr (.inr (.inr rfl))

theorem HasFactors.shapes {l r m : Mat K} {p q : ℕ} (h : HasFactors l r m p q) :
    (∃ i, shapeMatrix l = .ok (i, p)) ∧ (∃ j, shapeMatrix r = .ok (j, q)) ∧ shapeMatrix m = .ok (p, q) := by
  obtain ⟨t, u, h1, h2, rfl, rfl, h3⟩ := h
  refine ⟨⟨_, h1.shapeMatrix⟩, ⟨_, h2.shapeMatrix⟩, ?_⟩
  rcases h3 with ⟨v, hv, e1, e2⟩ | ⟨d, rfl, e1, e2⟩ | ⟨bt, rfl⟩
  · rw [hv.shapeMatrix, e1, e2]
  · show (.ok (d.cols, d.cols) : E (ℕ × ℕ)) = _
    rw [← e1, ← e2]
  · rfl

/-- A LowRank whose middle factor has a known size. -/
theorem mkLR_mid {l r m : Mat K} (hl : l.arrKind) (hr : r.arrKind) (hm : m.flatKind) {p q : ℕ} {s : ℕ × ℕ} (hs : shapeMatrix m = .ok s) (h1 : s.1 ≤ p) (h2 : s.2 ≤ q) :
    Post (Mat.factorsLe p q) (mkLR l r m) := by
  intro x h
  obtain ⟨rfl, p', q', hf, _, _, e⟩ := mkLR_factors hl hr hm h
  rw [hs] at e; cases e
  exact ⟨p', q', hf, h1, h2⟩
/-- A LowRank whose left and right factors have a known number of columns. -/
theorem mkLR_sides {l r m : Mat K} (hl : l.arrKind) (hr : r.arrKind) (hm : m.flatKind) {p q i j p' q' : ℕ} (hsl : shapeMatrix l = .ok (i, p')) (hsr : shapeMatrix r = .ok (j, q')) (h1 : p' ≤ p) (h2 : q' ≤ q) :
    Post (Mat.factorsLe p q) (mkLR l r m) := by
  intro x h
  obtain ⟨rfl, p'', q'', hf, ⟨_, e1⟩, ⟨_, e2⟩, _⟩ := mkLR_factors hl hr hm h
  rw [hsl] at e1; cases e1
  rw [hsr] at e2; cases e2
  exact ⟨_, _, hf, h1, h2⟩

theorem fillDiag_flat {t : Tensor K} {n : ℕ} : Post (fun m : Mat K => m.flatKind ∧ ∃ d, m = .diag d) (fillDiag t n) := by
  refine Post.skip fun v m hm => ?_
  obtain ⟨_, rfl⟩ := mkDiag_ok.1 hm
  exact ⟨.inr (.inr (.inl rfl)), _, rfl⟩

theorem constToLR_factors {t : Tensor K} {r c p q : ℕ} (hp : 1 ≤ p) (hq : 1 ≤ q) : Post (fun x : Mat K => x.kind = some .lr ∧ x.factorsLe p q) (constToLR t r c) := by
  refine fillDiag_flat.bind fun m hm x hx => ⟨kind_mkLR x hx, ?_⟩
  exact mkLR_sides (i := r) (j := c) (.inl rfl) (.inl rfl) hm.1 rfl rfl hp hq x hx

theorem mkWB_factors {d : Tensor K} {l r m : Mat K} {p q : ℕ} (h : (Mat.lr l r m).factorsLe p q) : Post (Mat.factorsLe p q) (mkWB d l r m) := by
  intro x hx
  obtain rfl := post_mkWB d l r m x hx
  exact h

theorem transposeM_factors {p q : ℕ} {a : Mat K} (h : a.factorsLe p q) : Post (Mat.factorsLe q p) (transposeM a) := by
  intro x hx
  have flat : ∀ {l r m m' : Mat K} {p' q'}, HasFactors l r m p' q' → transposeM m = .ok m' → m'.flatKind := by
    intro l r m m' p' q' hf hm
    obtain ⟨_, _, k⟩ := hf.kinds
    rcases k with k | k | k | k <;> cases m <;> simp [Mat.kind] at k <;> cases hm
    · exact .inl rfl
    · exact .inr (.inl rfl)
    · exact .inr (.inr (.inl rfl))
    · exact .inr (.inr (.inr rfl))
  cases a with
  | num t =>
    cases hx
    intro h0
    refine (h ?_).symm
    by_cases h2 : 2 ≤ t.rank
    · simp [nTranspose, h2, Tensor.rank, tr] at h0
    · simpa [nTranspose, h2] using h0
  | zero => cases hx; trivial
  | dense => cases hx; trivial
  | diag => cases hx; trivial
  | const t r c =>
    have := kind_mkConst x hx
    cases x <;> simp [Mat.kind] at this
    exact h.symm
  | lt t => obtain ⟨h2, rfl⟩ := mkUT_ok.1 hx; exact fun e => by omega
  | ut t => obtain ⟨h2, rfl⟩ := mkLT_ok.1 hx; exact fun e => by omega
  | lr l r m =>
    obtain ⟨p', q', hf, h1, h2⟩ := h
    obtain ⟨m', hm, hx⟩ := bind_ok_iff.1 hx
    obtain ⟨⟨i, e1⟩, ⟨j, e2⟩, _⟩ := hf.shapes
    exact mkLR_sides hf.kinds.2.1 hf.kinds.1 (flat hf hm) e2 e1 h2 h1 x hx
  | wb d l r m =>
    obtain ⟨p', q', hf, h1, h2⟩ := h
    obtain ⟨m', hm, hx⟩ := bind_ok_iff.1 hx
    obtain ⟨y, hy, hx⟩ := bind_ok_iff.1 hx
    obtain ⟨⟨i, e1⟩, ⟨j, e2⟩, _⟩ := hf.shapes
    have := mkLR_sides hf.kinds.2.1 hf.kinds.1 (flat hf hm) e2 e1 h2 h1 y hy
    rw [(mkLR_checks hy).1] at this
    exact mkWB_factors this x hx
  | kron l r =>
    obtain ⟨l', _, hx⟩ := bind_ok_iff.1 hx
    obtain ⟨r', _, hx⟩ := bind_ok_iff.1 hx
    cases hx; trivial
  | tiled n blk reps ax =>
    have := kind_transposeM hx
    rcases this with e | ⟨e, _⟩ | ⟨e, _⟩
    · cases x <;> simp [Mat.kind] at e
      trivial
    · simp [Mat.kind] at e
    · simp [Mat.kind] at e

theorem trM_factors {t : Bool} {p q : ℕ} {a : Mat K} (h : a.factorsLe p q) : Post (Mat.factorsLe (if t then q else p) (if t then p else q)) (trM t a) := by
  cases t with
  | false => exact Post.ok h
  | true => exact transposeM_factors h

theorem negativeM_factors {p q : ℕ} {a : Mat K} (h : a.factorsLe p q) : Post (Mat.factorsLe p q) (negativeM a) := by
  intro x hx
  have flat : ∀ {l r m m' : Mat K} {p' q'}, HasFactors l r m p' q' → negativeM m = .ok m' → m'.flatKind := by
    intro l r m m' p' q' hf hm
    obtain ⟨_, _, k⟩ := hf.kinds
    have := kind_negativeM m' hm
    unfold Mat.flatKind
    rw [this]; exact k
  have hk := kind_negativeM x hx
  cases a with
  | num t => cases hx; exact fun h0 => h h0
  | const t r c =>
    cases x <;> simp [Mat.kind] at hk
    exact h
  | lt t => obtain ⟨h2, rfl⟩ := mkLT_ok.1 hx; exact fun e => by omega
  | ut t => obtain ⟨h2, rfl⟩ := mkUT_ok.1 hx; exact fun e => by omega
  | lr l r m =>
    obtain ⟨p', q', hf, h1, h2⟩ := h
    obtain ⟨m', hm, hx⟩ := bind_ok_iff.1 hx
    obtain ⟨⟨i, e1⟩, ⟨j, e2⟩, _⟩ := hf.shapes
    exact mkLR_sides hf.kinds.1 hf.kinds.2.1 (flat hf hm) e1 e2 h1 h2 x hx
  | wb d l r m =>
    obtain ⟨p', q', hf, h1, h2⟩ := h
    obtain ⟨_, _, hx⟩ := bind_ok_iff.1 hx
    obtain ⟨m', hm, hx⟩ := bind_ok_iff.1 hx
    obtain ⟨y, hy, hx⟩ := bind_ok_iff.1 hx
    obtain ⟨⟨i, e1⟩, ⟨j, e2⟩, _⟩ := hf.shapes
    have := mkLR_sides hf.kinds.1 hf.kinds.2.1 (flat hf hm) e1 e2 h1 h2 y hy
    rw [(mkLR_checks hy).1] at this
    exact mkWB_factors this x hx
  | _ =>
    cases x <;> simp [Mat.kind] at hk
    trivial

/-! ### Broadcasting -/

theorem bb_arr {s : Shp} {a x : Mat K} {t : Tensor K} (h : a.IsArray t) (hx : broadcastBatchTo s a = .ok x) : ∃ u, x.Holds u ∧ u.cols = t.cols := by
  rcases h with ⟨rfl, _⟩ | rfl
  · obtain ⟨u, hu, hx⟩ := bind_ok_iff.1 hx
    cases hx
    exact ⟨u, ⟨.inl rfl, (bb_shape hu).1⟩, (bb_shape hu).2.2⟩
  · obtain ⟨u, hu, hx⟩ := bind_ok_iff.1 hx
    cases hx
    exact ⟨u, ⟨.inr (mkDense_of (bb_shape hu).1), (bb_shape hu).1⟩, (bb_shape hu).2.2⟩

theorem Mat.IsArray.flatKind {a : Mat K} {t : Tensor K} (h : a.IsArray t) : a.flatKind := by
  rcases h.arrKind with h | h
  · exact .inl h
  · exact .inr (.inl h)

theorem bb_lr_factors {s : Shp} {l r m l' r' m' : Mat K} {p q : ℕ} (h : (Mat.lr l r m).factorsLe p q) (hl : broadcastBatchTo s l = .ok l') (hr : broadcastBatchTo s r = .ok r')
    (hm : broadcastBatchTo s m = .ok m') : Post (Mat.factorsLe p q) (mkLR l' r' m') := by
  obtain ⟨p', q', ⟨t, u, h1, h2, rfl, rfl, h3⟩, k1, k2⟩ := h
  obtain ⟨t', ht, et⟩ := bb_arr h1 hl
  obtain ⟨u', hu, eu⟩ := bb_arr h2 hr
  have fm : m'.flatKind := by
    rcases h3 with ⟨v, hv, _⟩ | ⟨d, rfl, _⟩ | ⟨bt, rfl⟩
    · obtain ⟨v', hv', _⟩ := bb_arr hv hm
      exact hv'.isArray.flatKind
    · obtain ⟨v, _, hm⟩ := bind_ok_iff.1 hm
      obtain ⟨_, rfl⟩ := mkDiag_ok.1 hm
      exact .inr (.inr (.inl rfl))
    · cases hm
      exact .inr (.inr (.inr rfl))
  exact mkLR_sides ht.isArray.arrKind hu.isArray.arrKind fm ht.isArray.shapeMatrix hu.isArray.shapeMatrix (by omega) (by omega)

theorem broadcastBatchTo_factors {s : Shp} {p q : ℕ} {a : Mat K} (h : a.factorsLe p q) (ha : a.isAM = true) : Post (Mat.factorsLe p q) (broadcastBatchTo s a) := by
  intro x hx
  cases a with
  | num t => cases ha
  | zero => cases hx; trivial
  | dense t => obtain ⟨u, _, hx⟩ := bind_ok_iff.1 hx; cases hx; trivial
  | const t r c => obtain ⟨u, _, hx⟩ := bind_ok_iff.1 hx; cases hx; exact h
  | diag t => obtain ⟨u, _, hx⟩ := bind_ok_iff.1 hx; obtain ⟨_, rfl⟩ := mkDiag_ok.1 hx; trivial
  | lt t => obtain ⟨u, _, hx⟩ := bind_ok_iff.1 hx; obtain ⟨_, rfl⟩ := mkLT_ok.1 hx; exact fun e => by omega
  | ut t => obtain ⟨u, _, hx⟩ := bind_ok_iff.1 hx; obtain ⟨_, rfl⟩ := mkUT_ok.1 hx; exact fun e => by omega
  | lr l r m =>
    obtain ⟨l', hl, hx⟩ := bind_ok_iff.1 hx
    obtain ⟨r', hr, hx⟩ := bind_ok_iff.1 hx
    obtain ⟨m', hm, hx⟩ := bind_ok_iff.1 hx
    exact bb_lr_factors h hl hr hm x hx
  | wb d l r m =>
    obtain ⟨d', _, hx⟩ := bind_ok_iff.1 hx
    obtain ⟨_, _, hx⟩ := bind_ok_iff.1 hx
    obtain ⟨l', hl, hx⟩ := bind_ok_iff.1 hx
    obtain ⟨r', hr, hx⟩ := bind_ok_iff.1 hx
    obtain ⟨m', hm, hx⟩ := bind_ok_iff.1 hx
    obtain ⟨y, hy, hx⟩ := bind_ok_iff.1 hx
    have := bb_lr_factors (p := p) (q := q) h hl hr hm y hy
    rw [(mkLR_checks hy).1] at this
    exact mkWB_factors this x hx
  | kron l r =>
    obtain ⟨l', hl, hx⟩ := bind_ok_iff.1 hx
    obtain ⟨r', hr, hx⟩ := bind_ok_iff.1 hx
    cases hx; trivial
  | tiled => cases hx

theorem broadcastTo_factors {B : Ops K} {s : Shp} {p q : ℕ} {a : Mat K} (h : a.factorsLe p q) (ha : a.isAM = true) : Post (Mat.factorsLe p q) (broadcastTo B a s) := by
  unfold broadcastTo
  refine Post.skip fun sa => ?_
  refine Post.ite (Post.ok h) ?_
  · split
    · refine Post.skip fun _ => kind_mkZero.mono fun x hx => ?_
      cases x <;> simp [Mat.kind] at hx
      trivial
    · refine Post.skip fun _ => kind_mkConst.mono fun x hx => ?_
      cases x <;> simp [Mat.kind] at hx
      exact h
    · exact Post.ite (broadcastBatchTo_factors h ha) (Post.skip fun d => Post.skip fun e => Post.pure (v := mkDense e) True.intro)

/-! ### Sums -/

section
variable {env : Env K} {n : ℕ}

theorem dense_arr {a : Mat K} {t d : Tensor K} (h : a.IsArray t) (hd : (ops env n).dense a = .ok d) : d = t := by
  cases n with
  | zero => cases hd
  | succ n =>
    rcases h with ⟨rfl, _⟩ | rfl
    · cases hd; rfl
    · cases hd; rfl

theorem wrapLike_holds {a : Mat K} {v : Tensor K} (h : 2 ≤ v.rank) : (wrapLike a v).Holds v := by
  unfold wrapLike
  split_ifs
  · exact ⟨.inr (mkDense_of h), h⟩
  · exact ⟨.inl rfl, h⟩

theorem nConcat_rank2 {ax : Int} {t z v : Tensor K} (hz : 2 ≤ z.rank) (h : nConcat ax [t, z] = .ok v) : 2 ≤ v.rank := by
  simp only [nConcat, bind_ok_iff, guardE_ok, pure_eq_ok] at h
  obtain ⟨k, _, _, hg, rfl⟩ := h
  have := congrArg List.length (hg z (by simp))
  simp only [List.length_set] at this
  have e : (concatAx k [t, z]).rank = t.rank := by simp [concatAx, Tensor.rank, ofFn]
  rw [e]
  simp only [Tensor.rank] at *
  omega

theorem padZeroCol_holds {B : Ops K} {a : Mat K} : Post (fun p => ∃ t, p.Holds t) (padZeroCol B a) := by
  unfold padZeroCol
  refine Post.skip fun s => Post.skip fun d p hp => ?_
  obtain ⟨v, hv, hp⟩ := bind_ok_iff.1 hp
  cases hp
  exact ⟨v, wrapLike_holds (nConcat_rank2 (by simp [Tensor.rank, fillT, ofFn]) hv)⟩
theorem padZeroRow_holds {B : Ops K} {a : Mat K} : Post (fun p => ∃ t, p.Holds t) (padZeroRow B a) := by
  unfold padZeroRow
  refine Post.skip fun s => Post.skip fun d p hp => ?_
  obtain ⟨v, hv, hp⟩ := bind_ok_iff.1 hp
  cases hp
  exact ⟨v, wrapLike_holds (nConcat_rank2 (by simp [Tensor.rank, fillT, ofFn]) hv)⟩

theorem normIdxs_length {c : ℕ} : ∀ {l : List Int} {js : List ℕ}, normIdxs c l = .ok js → js.length = l.length
  | [], js, h => by cases h; rfl
  | i :: l, js, h => by
    simp only [normIdxs, bind_ok_iff, pure_eq_ok] at h
    obtain ⟨x, _, y, hy, rfl⟩ := h
    simp [normIdxs_length hy]

theorem takeGen_holds {a q : Mat K} {t : Tensor K} (h : a.Holds t) {idx : List Int} {ax : Int} (hq : takeGen (ops env n) a idx ax = .ok q) :
    ∃ w, q.Holds w ∧ (ax = -1 → w.cols = idx.length) := by
  simp only [takeGen, bind_ok_iff, pure_eq_ok] at hq
  obtain ⟨d, hd, w, hw, rfl⟩ := hq
  obtain rfl := dense_arr h.isArray hd
  have h2 := h.2
  simp only [nTake, bind_ok_iff, pure_eq_ok] at hw
  obtain ⟨k, hk, js, hjs, rfl⟩ := hw
  have e : (takeAx k js d).rank = d.rank := by simp [takeAx, Tensor.rank, ofFn]
  refine ⟨_, wrapLike_holds (by rw [e]; exact h2), ?_⟩
  rintro rfl
  have hk0 : k = 0 := by
    have := axPos_neg (R := d.rank) (k := 0) (by omega)
    simp only [CharP.cast_eq_zero, zero_add] at this
    rw [this] at hk; cases hk; rfl
  subst hk0
  rw [← normIdxs_length hjs]
  have : 0 < d.sh.length := by have := h2; simp only [Tensor.rank] at this; omega
  simp [Tensor.cols, dim, takeAx, ofFn, this]

theorem slots_length {L : List Slot} (h : (none, none) ∉ L) : L.length ≤ (L.filterMap (·.1)).length + (L.filterMap (·.2)).length := by
  induction L with
  | nil => simp
  | cons s L ih =>
    have := ih (fun hm => h (List.mem_cons_of_mem _ hm))
    rcases s with ⟨_ | a, _ | b⟩
    · exact absurd (List.mem_cons_self) h
    all_goals simp only [List.length_cons, List.filterMap_cons]; omega

/-- Aligning makes no more slots than there are columns. -/
theorem align_length {c : Cfg K} {a b : Tensor K} {r : Align} (h : align c.code a b = .ok r) : r.aJoin.length = r.bJoin.length ∧ r.aJoin.length ≤ a.cols + b.cols := by
  simp only [align, bind_ok_iff] at h
  obtain ⟨_, _, _, _, h⟩ := h
  obtain ⟨L, rfl, h1, h2, _, h4⟩ := alignLoop_slots h
  have := slots_length h4
  rw [h1, h2] at this
  have ea : (c.code.argsort (colNorms a)).length = a.cols := (argsort_range a).length_eq.trans List.length_range
  have eb : (c.code.argsort (colNorms b)).length = b.cols := (argsort_range b).length_eq.trans List.length_range
  simp only [List.length_map]
  exact ⟨trivial, by omega⟩

theorem join_holds {a b x : Mat K} {p q : Mat K} {A : List Int} {A' : List Int} {u v : Mat K} (hA : A.length = A'.length)
    (hp : padZeroCol (ops env n) a = .ok p) (hu : takeGen (ops env n) p A (-1) = .ok u) (hq : padZeroCol (ops env n) b = .ok q) (hv : takeGen (ops env n) q A' (-1) = .ok v)
    (hx : (ops env n).add u v = .ok x) : ∃ w, x.Holds w ∧ w.cols = A.length := by
  obtain ⟨t, ht⟩ := padZeroCol_holds _ hp
  obtain ⟨t', ht'⟩ := padZeroCol_holds _ hq
  obtain ⟨w, hw, e⟩ := takeGen_holds ht hu
  obtain ⟨w', hw', e'⟩ := takeGen_holds ht' hv
  refine ⟨_, add_holds hw hw' hx, ?_⟩
  show dim (bsh _ _) 0 = _
  rw [dim_bsh]
  have e1 : dim w.sh 0 = A.length := e rfl
  have e2 : dim w'.sh 0 = A.length := (e' rfl).trans hA.symm
  rw [e1, e2]; simp [bd]

end

variable {c : Cfg K} {n : ℕ}

theorem addLRLR_bound {al ar am bl br bm : Mat K} {t u t' u' : Tensor K} (a1 : al.IsArray t) (a2 : ar.IsArray u) (b1 : bl.IsArray t') (b2 : br.IsArray u') {P Q : ℕ}
    (hP : ∀ L, align c.code t t' = .ok L → L.aJoin.length ≤ P) (hQ : ∀ L, align c.code u u' = .ok L → L.aJoin.length ≤ Q) :
    Post (Mat.factorsLe P Q) (addLRLR c.code (ops c.code n) al ar am bl br bm) := by
  intro x h
  simp only [addLRLR, bind_ok_iff] at h
  obtain ⟨_, _, _, _, _, _, dal, e1, dbl, e2, L, hL, dar, e3, dbr, e4, R, hR, pal, hpal, aLeft, haL, pbl, hpbl, bLeft, hbL, jL, hjL,
    par, hpar, aRight, haR, pbr, hpbr, bRight, hbR, jR, hjR, pam, hpam, pam', hpam', tam, htam, aMid, haM,
    pbm, hpbm, pbm', hpbm', tbm, htbm, bMid, hbM, jM, hjM, lr, hlr, djm, edjm, isz, hisz, h⟩ := h
  obtain rfl := dense_arr a1 e1
  obtain rfl := dense_arr b1 e2
  obtain rfl := dense_arr a2 e3
  obtain rfl := dense_arr b2 e4
  have l1 := (align_length hL).1
  have r1 := (align_length hR).1
  have l2 := hP L hL
  have r2 := hQ R hR
  obtain ⟨wl, hwl, el⟩ := join_holds l1 hpal haL hpbl hbL hjL
  obtain ⟨wr, hwr, er⟩ := join_holds r1 hpar haR hpbr hbR hjR
  have hm : ∃ wm, jM.Holds wm := by
    obtain ⟨t1, h1⟩ := padZeroCol_holds _ hpam'
    obtain ⟨t2, h2, _⟩ := takeGen_holds h1 htam
    obtain ⟨t3, h3, _⟩ := takeGen_holds h2 haM
    obtain ⟨t1', h1'⟩ := padZeroCol_holds _ hpbm'
    obtain ⟨t2', h2', _⟩ := takeGen_holds h1' htbm
    obtain ⟨t3', h3', _⟩ := takeGen_holds h2' hbM
    exact ⟨_, add_holds h3 h3' hjM⟩
  obtain ⟨wm, hwm⟩ := hm
  have key := mkLR_sides (p := P) (q := Q) hwl.isArray.arrKind hwr.isArray.arrKind hwm.isArray.flatKind hwl.isArray.shapeMatrix hwr.isArray.shapeMatrix
    (by omega) (by omega) lr hlr
  cases isz with
  | false => cases h; exact key
  | true =>
    obtain ⟨s, _, h⟩ := bind_ok_iff.1 h
    have := kind_mkZero x h
    cases x <;> simp [Mat.kind] at this
    trivial

theorem addLRLR_factors {al ar am bl br bm : Mat K} {p q p' q' : ℕ} (ha : (Mat.lr al ar am).factorsLe p q) (hb : (Mat.lr bl br bm).factorsLe p' q') :
    Post (Mat.factorsLe (p + p') (q + q')) (addLRLR c.code (ops c.code n) al ar am bl br bm) := by
  obtain ⟨_, _, ⟨t, u, a1, a2, rfl, rfl, _⟩, i1, i2⟩ := ha
  obtain ⟨_, _, ⟨t', u', b1, b2, rfl, rfl, _⟩, j1, j2⟩ := hb
  exact addLRLR_bound a1 a2 b1 b2 (fun L hL => (align_length hL).2.trans (by omega)) fun L hL => (align_length hL).2.trans (by omega)

/-- The bounds for addition. -/
def AddFactors (B : Ops K) : Prop := ∀ {a b : Mat K} {p q p' q' : ℕ}, a.factorsLe p q → b.factorsLe p' q' → Post (Mat.factorsLe (p + p') (q + q')) (B.add a b)

theorem addRun_factors (ih : AddFactors (ops c.code n)) {a b : Mat K} {m : AddM} {p q p' q' : ℕ} (ha : a.factorsLe p q) (hb : b.factorsLe p' q') (aa : a.isAM = true) (ab : b.isAM = true) :
    Post (Mat.factorsLe (p + p') (q + q')) (addRun c.code (ops c.code n) m a b) := by
  have z : ∀ t : Tensor K, (Mat.diag t).factorsLe 0 0 := fun _ => True.intro
  have tri : ∀ {t : Tensor K}, Post (Mat.factorsLe (p + p') (q + q')) (mkLT t) := fun {t} x hx => by
    obtain ⟨_, rfl⟩ := mkLT_ok.1 hx; exact fun e => by omega
  have tri' : ∀ {t : Tensor K}, Post (Mat.factorsLe (p + p') (q + q')) (mkUT t) := fun {t} x hx => by
    obtain ⟨_, rfl⟩ := mkUT_ok.1 hx; exact fun e => by omega
  unfold addRun
  split
  · refine Post.skip fun _ => Post.skip fun _ => Post.skip fun _ => ?_
    split
    · exact Post.skip fun _ => (broadcastTo_factors ha aa).mono fun x hx => hx.mono (by omega) (by omega)
    · exact Post.error
  · refine Post.skip fun _ => Post.skip fun _ => Post.skip fun _ => ?_
    split
    · exact Post.skip fun _ => (broadcastTo_factors hb ab).mono fun x hx => hx.mono (by omega) (by omega)
    · exact Post.error
  · exact Post.skip fun _ => Post.skip fun _ => Post.skip fun _ => Post.pure True.intro
  · exact Post.skip fun _ => Post.pure True.intro
  · refine Post.skip fun _ x hx => ?_
    obtain ⟨_, rfl⟩ := mkDiag_ok.1 hx; trivial
  · refine Post.skip fun _ => Post.skip fun _ => Post.skip fun _ => kind_mkConst.mono fun x hx => ?_
    cases x <;> simp [Mat.kind] at hx
    exact ⟨by have := ha.1; omega, by have := ha.2; omega⟩
  · exact Post.skip fun _ => Post.skip fun _ => Post.skip fun _ => Post.skip fun _ => Post.pure True.intro
  · refine Post.skip fun _ => Post.skip fun _ => Post.skip fun _ => Post.skip fun _ => (constToLR_factors ha.1 ha.2).bind fun y hy => ?_
    exact (ih hy.2 (z _)).mono fun x hx => hx.mono (by omega) (by omega)
  · exact (ih hb ha).mono fun x hx => hx.mono (by omega) (by omega)
  · exact Post.skip fun _ => tri
  · exact Post.skip fun _ => Post.skip fun _ => tri
  · exact Post.skip fun _ => tri'
  · exact Post.skip fun _ => Post.pure True.intro
  · exact Post.skip fun _ => Post.skip fun _ => tri'
  · exact addLRLR_factors ha hb
  · exact Post.skip fun _ => (constToLR_factors hb.1 hb.2).bind fun y hy => ih ha hy.2
  · exact (mkWB_factors ha).mono fun x hx => hx.mono (by omega) (by omega)
  · exact (mkWB_factors hb).mono fun x hx => hx.mono (by omega) (by omega)
  · refine (ih (z _) (z _)).bind fun x hx => (ih (a := .lr _ _ _) (b := .lr _ _ _) ha hb).bind fun y hy => (ih hx hy).mono fun x hx => hx.mono (by omega) (by omega)
  · refine (ih (z _) (z _)).bind fun x hx => (ih (b := .lr _ _ _) hx ha).mono fun x hx => hx.mono (by omega) (by omega)
  · refine (ih (a := .lr _ _ _) ha hb).bind fun x hx => (ih (z _) hx).mono fun x hx => hx.mono (by omega) (by omega)
  · exact Post.error

theorem isAM_convert (env : Env K) (a : Mat K) : (convertAM env a).isAM = true := by
  cases a with
  | num t => simp only [convertAM]; split_ifs <;> rfl
  | _ => rfl

theorem ops_addFactors (c : Cfg K) (n : ℕ) : AddFactors (ops c.code n) := by
  induction n with
  | zero => exact fun _ _ => Post.error
  | succ n ih =>
    intro a b p q p' q' ha hb
    show Post _ (stepAdd c.code (ops c.code n) a b)
    unfold stepAdd
    split
    · rename_i s t
      intro x hx
      obtain ⟨v, hv, hx⟩ := bind_ok_iff.1 hx
      cases hx
      obtain ⟨_, rfl⟩ := nAdd_ok.1 hv
      intro h0
      have h0 : (bsh s.sh t.sh).length = 0 := h0
      rw [length_bsh] at h0
      have := ha (show s.sh.length = 0 by omega)
      exact ⟨by omega, by omega⟩
    · dsimp only
      split
      · exact addRun_factors ih ha.convert hb.convert (isAM_convert _ _) (isAM_convert _ _)
      · exact Post.error

/-! ### Element-wise products -/

/-- The bounds for element-wise multiplication. -/
def MulFactors (B : Ops K) : Prop := ∀ {a b : Mat K} {p q p' q' : ℕ}, a.factorsLe p q → b.factorsLe p' q' → Post (Mat.factorsLe (p * p') (q * q')) (B.mul a b)

theorem mulLRLR_factors {al ar am bl br bm : Mat K} {p q p' q' : ℕ} (ha : (Mat.lr al ar am).factorsLe p q) (hb : (Mat.lr bl br bm).factorsLe p' q') :
    Post (Mat.factorsLe (p * p') (q * q')) (mulLRLR (ops c.code n) al ar am bl br bm) := by
  intro x h
  obtain ⟨_, _, ⟨t, u, a1, a2, rfl, rfl, _⟩, i1, i2⟩ := ha
  obtain ⟨_, _, ⟨t', u', b1, b2, rfl, rfl, _⟩, j1, j2⟩ := hb
  simp only [mulLRLR, bind_ok_iff] at h
  obtain ⟨_, _, _, _, _, _, al', e1, am', e2, ar', e3, bl', e4, bm', e5, br', e6, _, _, _, _, _, _, _, _, s, _,
    al2, f1, am2, f2, ar2, f3, bl2, f4, bm2, f5, br2, f6, f, hf, h⟩ := h
  obtain rfl := dense_arr a1 e1
  obtain rfl := dense_arr a2 e3
  obtain rfl := dense_arr b1 e4
  obtain rfl := dense_arr b2 e6
  simp only [hadamardFactors, bind_ok_iff, pure_eq_ok] at hf
  obtain ⟨_, _, _, _, _, _, rfl⟩ := hf
  have d1 := (bb_shape f1).2.2
  have d2 := (bb_shape f3).2.2
  have d3 := (bb_shape f4).2.2
  have d4 := (bb_shape f6).2.2
  refine mkLR_sides (.inl rfl) (.inl rfl) (.inl rfl) (Mat.IsArray.shapeMatrix (.inl ⟨rfl, by simp [Tensor.rank]⟩)) (Mat.IsArray.shapeMatrix (.inl ⟨rfl, by simp [Tensor.rank]⟩)) ?_ ?_ x h
  · show al2.cols * bl2.cols ≤ _
    rw [d1, d3]; exact Nat.mul_le_mul i1 j1
  · show ar2.cols * br2.cols ≤ _
    rw [d2, d4]; exact Nat.mul_le_mul i2 j2

/-- A number or an array times an array, a Diagonal or Zero is one again. -/
theorem mul_flat {s : Tensor K} {m x : Mat K} (hm : m.flatKind) (h : (ops c.code n).mul (.num s) m = .ok x) : x.flatKind := by
  have hc : kindC c.code (.num s) = .zero ∨ kindC c.code (.num s) = .const ∨ kindC c.code (.num s) = .dense := by
    by_cases h0 : s.rank = 0
    · by_cases h1 : c.code.isNumber s = true ∧ s.get (fun _ => 0) = 0
      · exact .inl (by simp [kindC, convertAM, h0, h1, Mat.kind])
      · exact .inr (.inl (by simp only [kindC, convertAM, h0, if_true, if_neg h1]; rfl))
    · exact .inr (.inr (kindC_num_rk h0))
  have key : ∀ {k}, m.kind = some k → x.kind = some (mulOut (kindC c.code (.num s)) k) := by
    intro k hk
    have := ops_mulKinds c.code n (.num s) m (.inr (isAM_of_kind hk)) x h
    rwa [kindC_am hk] at this
  rcases hm with k | k | k | k
  · cases m <;> simp [Mat.kind] at k
    cases n with
    | zero => cases h
    | succ n =>
      obtain ⟨v, _, h⟩ := bind_ok_iff.1 (show (do return .num (← nMul s _) : E (Mat K)) = .ok x from h)
      cases h
      exact .inl rfl
  all_goals
    have := key k
    rcases hc with e | e | e <;> rw [e] at this <;> simp only [mulOut] at this <;> unfold Mat.flatKind <;> rw [this] <;> simp

theorem mulRun_factors (ih : MulFactors (ops c.code n)) {a b : Mat K} {k k' : Kind} {p q p' q' : ℕ} (ha : a.factorsLe p q) (hb : b.factorsLe p' q') (ka : a.kind = some k) (kb : b.kind = some k') :
    Post (Mat.factorsLe (p * p') (q * q')) (mulRun (ops c.code n) (mulId k k') a b) := by
  have z : ∀ t : Tensor K, (Mat.diag t).factorsLe 0 0 := fun _ => True.intro
  have tri : ∀ {t : Tensor K}, Post (Mat.factorsLe (p * p') (q * q')) (mkLT t) := fun {t} x hx => by
    obtain ⟨_, rfl⟩ := mkLT_ok.1 hx; exact fun e => by omega
  have tri' : ∀ {t : Tensor K}, Post (Mat.factorsLe (p * p') (q * q')) (mkUT t) := fun {t} x hx => by
    obtain ⟨_, rfl⟩ := mkUT_ok.1 hx; exact fun e => by omega
  have dg : ∀ {t : Tensor K}, Post (Mat.factorsLe (p * p') (q * q')) (mkDiag t) := fun {t} x hx => by
    obtain ⟨_, rfl⟩ := mkDiag_ok.1 hx; exact True.intro
  generalize e : mulId k k' = m
  unfold mulRun
  split
  · refine Post.skip fun _ => Post.skip fun _ => Post.skip fun _ => ?_
    split
    · exact Post.skip fun _ => broadcastTo_factors True.intro rfl
    · exact Post.error
  · refine Post.skip fun _ => Post.skip fun _ => Post.skip fun _ => ?_
    split
    · exact Post.skip fun _ => broadcastTo_factors True.intro rfl
    · exact Post.error
  · exact Post.skip fun _ => Post.skip fun _ => Post.skip fun _ => Post.pure True.intro
  · exact Post.skip fun _ => Post.pure True.intro
  · exact Post.skip fun _ => dg
  · unfold mulDiagAm
    refine Post.skip fun _ => Post.skip fun _ => Post.skip fun _ => Post.skip fun rc => ?_
    dsimp only
    split_ifs
    · exact Post.skip fun _ => Post.skip fun _ => Post.skip fun _ => dg
    · exact Post.skip fun _ => Post.skip fun _ => Post.skip fun _ => dg
    · exact Post.skip fun _ => Post.skip fun _ => dg
  · rw [Nat.mul_comm p, Nat.mul_comm q]; exact ih hb ha
  · refine Post.skip fun _ => Post.skip fun _ => Post.skip fun _ => kind_mkConst.mono fun x hx => ?_
    cases x <;> simp [Mat.kind] at hx
    exact ⟨Nat.mul_le_mul ha.1 hb.1, Nat.mul_le_mul ha.2 hb.2⟩
  · exact Post.skip fun _ => Post.skip fun _ => Post.skip fun _ => Post.skip fun _ => Post.skip fun _ => Post.skip fun _ => Post.skip fun _ => Post.pure True.intro
  · exact Post.skip fun _ => Post.skip fun _ => Post.skip fun _ => Post.skip fun _ => dg
  · exact Post.skip fun _ => tri
  · exact Post.skip fun _ => Post.skip fun _ => tri
  · exact Post.skip fun _ => tri
  · exact Post.skip fun _ => tri'
  · exact Post.skip fun _ => Post.skip fun _ => Post.skip fun _ => dg
  · exact Post.skip fun _ => Post.skip fun _ => tri'
  · exact Post.skip fun _ => tri'
  · exact mulLRLR_factors ha hb
  · refine Post.skip fun _ => Post.skip fun _ => Post.skip fun _ x hx => ?_
    obtain ⟨m', hm, hx⟩ := bind_ok_iff.1 hx
    obtain ⟨p1, q1, hf, h1, h2⟩ := hb
    obtain ⟨⟨i, e1⟩, ⟨j, e2⟩, _⟩ := hf.shapes
    refine mkLR_sides hf.kinds.1 hf.kinds.2.1 (mul_flat hf.kinds.2.2 hm) e1 e2 ?_ ?_ x hx
    · exact h1.trans (Nat.le_mul_of_pos_left _ ha.1)
    · exact h2.trans (Nat.le_mul_of_pos_left _ ha.2)
  · refine (ih (z _) hb).bind fun x hx => (ih (a := .lr _ _ _) ha hb).bind fun y hy => (ops_addFactors c n hx hy).mono fun x hx => hx.mono (by omega) (by omega)
  · exact Post.skip fun _ => Post.skip fun _ => Post.skip fun _ => Post.skip fun _ => Post.skip fun _ => Post.skip fun _ => Post.skip fun _ => Post.pure True.intro
  · exact Post.skip fun _ => Post.skip fun _ => Post.skip fun _ => Post.skip fun _ => Post.pure True.intro
  · exact Post.error

theorem ops_mulFactors (c : Cfg K) (n : ℕ) : MulFactors (ops c.code n) := by
  induction n with
  | zero => exact fun _ _ => Post.error
  | succ n ih =>
    intro a b p q p' q' ha hb
    show Post _ (stepMul c.code (ops c.code n) a b)
    unfold stepMul
    split
    · rename_i s t
      intro x hx
      obtain ⟨v, hv, hx⟩ := bind_ok_iff.1 hx
      cases hx
      obtain ⟨_, rfl⟩ := nMul_ok.1 hv
      intro h0
      have h0 : (bsh s.sh t.sh).length = 0 := h0
      rw [length_bsh] at h0
      have h1 := ha (show s.sh.length = 0 by omega)
      have h2 := hb (show t.sh.length = 0 by omega)
      exact ⟨Nat.mul_le_mul h1.1 h2.1, Nat.mul_le_mul h1.2 h2.2⟩
    · simp only [kind_convertAM]
      exact mulRun_factors ih ha.convert hb.convert (kind_convertAM _ _) (kind_convertAM _ _)

/-! ### Matrix products -/

/-- The number of left factors of `a b`, from the classes and the numbers of left factors.  A LowRank (or Constant) on the left keeps its factors; something else times a LowRank has as many
as the LowRank; a Woodbury is a Diagonal plus a LowRank. -/
def mmLeft (k k' : Kind) (p p' : ℕ) : ℕ :=
  match k, k' with
  | .zero, _ | _, .zero => 0
  | .wb, .wb => 2 * p + p'
  | .wb, .lr | .wb, .const => p + p'
  | .lr, .wb | .const, .wb => 2 * p
  | .lr, _ | .const, _ | .wb, _ => p
  | _, .wb | _, .lr | _, .const => p'
  | _, _ => 0

/-- The number of right factors of `a b`. -/
def mmRight (k k' : Kind) (q q' : ℕ) : ℕ := mmLeft k' k q' q

/-- The bounds for matrix multiplication. -/
def MmFactors (env : Env K) (B : Ops K) : Prop := ∀ {a b : Mat K} {p q p' q' : ℕ} (ta tb : Bool), a.factorsLe p q → b.factorsLe p' q' →
  Post (Mat.factorsLe (mmLeft (kindC env a) (kindC env b) (if ta then q else p) (if tb then q' else p'))
    (mmRight (kindC env a) (kindC env b) (if ta then p else q) (if tb then p' else q'))) (B.matmul ta tb a b)

/-- Arrays (of rank at least 2), Dense, Diagonal and Zero. -/
def Mat.flat2 (a : Mat K) : Prop := a.flatKind ∧ ∀ t, a = .num t → 2 ≤ t.rank

theorem HasFactors.flat2 {l r m : Mat K} {p q : ℕ} (h : HasFactors l r m p q) : l.flat2 ∧ r.flat2 ∧ m.flat2 := by
  have ar : ∀ {a : Mat K} {t}, a.IsArray t → a.flat2 := by
    rintro a t (⟨rfl, h⟩ | rfl)
    · exact ⟨.inl rfl, by rintro _ ⟨⟩; exact h⟩
    · exact ⟨.inr (.inl rfl), by rintro _ ⟨⟩⟩
  obtain ⟨t, u, h1, h2, _, _, h3⟩ := id h
  refine ⟨ar h1, ar h2, h.kinds.2.2, ?_⟩
  rintro v rfl
  rcases h3 with ⟨_, ⟨e, h⟩ | e, _⟩ | ⟨_, e, _⟩ | ⟨_, e⟩ <;> cases e
  exact h

theorem flat2_kindC {env : Env K} {a : Mat K} (h : a.flat2) : kindC env a = .dense ∨ kindC env a = .diag ∨ kindC env a = .zero := by
  obtain ⟨k | k | k | k, h⟩ := h
  · cases a <;> simp [Mat.kind] at k
    exact .inl (kindC_num_rk (by have := h _ rfl; omega))
  · exact .inl (kindC_am k)
  · exact .inr (.inl (kindC_am k))
  · exact .inr (.inr (kindC_am k))

theorem flat2_tri {a : Mat K} (h : a.flat2) : TriRk a := by
  obtain ⟨k | k | k | k, _⟩ := h <;> cases a <;> simp [Mat.kind] at k <;> exact True.intro

theorem nMatmul_rank2 {ta tb : Bool} {a b r : Tensor K} (h : nMatmul ta tb a b = .ok r) : 2 ≤ r.rank := by
  unfold nMatmul at h
  split_ifs at h
  cases h
  simp [Tensor.rank]

theorem mm_flat {ta tb : Bool} {a b : Mat K} (ha : a.flat2) (hb : b.flat2) : Post Mat.flat2 ((ops c.code n).matmul ta tb a b) := by
  intro x hx
  by_cases hab : a.isAM = true ∨ b.isAM = true
  · obtain ⟨k, hk, e⟩ := ops_mmKinds c.code n ta tb a b hab (flat2_tri ha) (flat2_tri hb) x hx
    have : k = .dense ∨ k = .diag ∨ k = .zero := by
      rcases flat2_kindC (env := c.code) ha with h | h | h <;> rcases flat2_kindC (env := c.code) hb with h' | h' | h' <;> rw [h, h'] at hk <;> simp [mmOut] at hk <;> simp [hk]
    refine ⟨?_, by rintro t rfl; cases e⟩
    unfold Mat.flatKind
    rw [e]
    rcases this with rfl | rfl | rfl <;> simp
  · cases a <;> cases b <;> simp [Mat.isAM] at hab
    cases n with
    | zero => cases hx
    | succ n =>
      obtain ⟨v, hv, hx⟩ := bind_ok_iff.1 (show (do return .num (← nMatmul ta tb _ _) : E (Mat K)) = .ok x from hx)
      cases hx
      exact ⟨.inl rfl, by rintro _ ⟨⟩; exact nMatmul_rank2 hv⟩

theorem m3_flat {ta tb tc : Bool} {a b d : Mat K} (ha : a.flat2) (hb : b.flat2) (hd : d.flat2) : Post Mat.flat2 (matmul3 (ops c.code n) ta tb tc a b d) := by
  unfold matmul3
  refine Post.skip fun _ => Post.skip fun _ => Post.skip fun _ => Post.ite ?_ ?_
  · exact (mm_flat ha hb).bind fun x hx => mm_flat hx hd
  · exact (mm_flat hb hd).bind fun x hx => mm_flat ha hx

/-- Kinds that times an array make an array. -/
def Kind.solid : Kind → Bool
  | .zero | .lr | .wb | .const => false
  | _ => true

theorem mm_arrR {ta tb : Bool} {a b : Mat K} {k : Kind} {t : Tensor K} (hk : a.kind = some k) (hs : k.solid = true) (tr : TriRk a) (hb : b.IsArray t) : Post Mat.arrKind ((ops c.code n).matmul ta tb a b) := by
  intro x hx
  have hb' : kindC c.code b = .dense ∧ TriRk b := by
    rcases hb with ⟨rfl, h⟩ | rfl
    · exact ⟨kindC_num_rk (by omega), True.intro⟩
    · exact ⟨rfl, True.intro⟩
  obtain ⟨k1, h1, e⟩ := ops_mmKinds c.code n ta tb a b (.inl (isAM_of_kind hk)) tr hb'.2 x hx
  rw [kindC_am hk, hb'.1] at h1
  right
  rw [e]
  cases k <;> simp [Kind.solid] at hs <;> simp [mmOut] at h1 <;> rw [h1]

theorem mm_left {k k' : Kind} {m : MmM} (h : mmId k k' = some m) :
    (m = .lrAm → k = .lr ∧ k'.solid = true) ∧ (m = .amLr → k' = .lr ∧ k.solid = true) ∧ (m = .constAm → k'.solid = true) ∧ (m = .amConst → k.solid = true) ∧
    (m = .diagAm → k'.solid = true) ∧ (m = .amDiag → k.solid = true) ∧ (m = .lrLr → k = .lr ∧ k' = .lr) ∧ (m = .ltAm → k'.solid = true) ∧ (m = .amLt → k.solid = true) ∧
    (m = .lrConst → k = .lr) ∧ (m = .constLr → k' = .lr) ∧ (m = .amKron → k.solid = true ∧ k'.solid = true) ∧ (m = .kronDiag → k = .kron) ∧ (m = .diagKron → k' = .kron) := by
  revert h m
  cases k <;> cases k' <;> intro m h <;> simp only [mmId, Option.some.injEq, reduceCtorEq] at h <;> subst h <;> simp [Kind.solid]

theorem solid_tr {k : Kind} {t : Bool} (h : k.solid = true) : (if t then trKind k else k).solid = true := by
  cases t <;> cases k <;> simp_all [Kind.solid, trKind]

theorem solid_mm {k k' : Kind} (h : k.solid = true) (h' : k'.solid = true) (p p' : ℕ) : mmLeft k k' p p' = 0 := by
  cases k <;> simp [Kind.solid] at h <;> cases k' <;> simp [Kind.solid] at h' <;> rfl

theorem solid_factors {k : Kind} {a : Mat K} {p q : ℕ} (hk : a.kind = some k) (h : k.solid = true) (ha : a.factorsLe p q) : a.factorsLe 0 0 := by
  cases a with
  | num => cases hk
  | const => cases hk; cases h
  | lr => cases hk; cases h
  | wb => cases hk; cases h
  | _ => exact ha

/-- The factors of a LowRank, with the classes. -/
theorem lr_of_kind {a : Mat K} (h : a.kind = some .lr) : ∃ l r m, a = .lr l r m := by
  cases a <;> simp [Mat.kind] at h
  exact ⟨_, _, _, rfl⟩

theorem constLR_bound {l : Tensor K} {v s : Tensor K} {ar p q : ℕ} (hp : 1 ≤ p) (hq : 1 ≤ q) (flip : Bool) :
    Post (Mat.factorsLe p q) (do
      let m ← fillDiag s 1
      if flip then mkLR (.num (expandEnd 1 v)) (.num (fillT [1, ar] 1)) m else mkLR (.num (fillT [1, ar] 1)) (.num (expandEnd 1 v)) m) := by
  refine fillDiag_flat.bind fun m hm => ?_
  have e : ∃ s, shapeMatrix m = .ok s ∧ s.1 = s.2 := by
    obtain ⟨_, d, rfl⟩ := hm
    exact ⟨_, rfl, rfl⟩
  obtain ⟨s, es, e12⟩ := e
  split_ifs
  · intro x hx
    obtain ⟨_, _, _, _, a, b, c', ha, hb, hc, e1, e2⟩ := mkLR_checks hx
    have : b = (ar, 1) := by
      have hb' : shapeMatrix (.num (fillT [1, ar] 1) : Mat K) = .ok (ar, 1) := rfl
      rw [hb'] at hb; cases hb; rfl
    rw [es] at hc; cases hc
    subst this
    exact mkLR_mid (.inl rfl) (.inl rfl) hm.1 es (by simp only at e2; omega) (by simp only at e2; omega) x hx
  · intro x hx
    obtain ⟨_, _, _, _, a, b, c', ha, hb, hc, e1, e2⟩ := mkLR_checks hx
    have : a = (ar, 1) := by
      have ha' : shapeMatrix (.num (fillT [1, ar] 1) : Mat K) = .ok (ar, 1) := rfl
      rw [ha'] at ha; cases ha; rfl
    rw [es] at hc; cases hc
    subst this
    exact mkLR_mid (.inl rfl) (.inl rfl) hm.1 es (by simp only at e1; omega) (by simp only at e1; omega) x hx

theorem mmLeft_lr (k' : Kind) (h : k'.solid = true) (p p' : ℕ) : mmLeft .lr k' p p' = p ∧ mmLeft k' .lr p p' = p' ∧ mmLeft .const k' p p' = p ∧ mmLeft k' .const p p' = p' := by
  cases k' <;> simp [Kind.solid] at h <;> simp [mmLeft]

theorem mmLeft_wb (k : Kind) (p p' : ℕ) : (k ≠ .zero → mmLeft .diag k 0 p' + mmLeft .lr k p p' ≤ mmLeft .wb k p p') ∧ (k ≠ .zero → k ≠ .wb → mmLeft k .diag p 0 + mmLeft k .lr p p' ≤ mmLeft k .wb p p') := by
  cases k <;> simp [mmLeft] <;> omega

theorem mmId_wb {k k' : Kind} {m : MmM} (h : mmId k k' = some m) : (m = .wbAm → k' ≠ .zero) ∧ (m = .amWb → k ≠ .zero ∧ k ≠ .wb) := by
  revert h m
  cases k <;> cases k' <;> intro m h <;> simp only [mmId, Option.some.injEq, reduceCtorEq] at h <;> subst h <;> simp

set_option maxHeartbeats 1000000 in
theorem mmRun_factors (ih : MmFactors c.code (ops c.code n)) {a b : Mat K} {k k' : Kind} {p q p' q' : ℕ} (ta tb : Bool) (ha : a.factorsLe p q) (hb : b.factorsLe p' q') (ka : a.kind = some k) (kb : b.kind = some k')
    {m : MmM} (e : mmId k k' = some m) :
    Post (Mat.factorsLe (mmLeft k k' (if ta then q else p) (if tb then q' else p')) (mmRight k k' (if ta then p else q) (if tb then p' else q'))) (mmRun (ops c.code n) m ta tb a b) := by
  have z : ∀ t : Tensor K, (Mat.diag t).factorsLe 0 0 := fun _ => True.intro
  have T := mm_left e
  have W := mmId_wb e
  have tri : ∀ {x y : ℕ} {t : Tensor K}, Post (Mat.factorsLe x y) (mkLT t) := fun {_ _ t} x hx => by
    obtain ⟨_, rfl⟩ := mkLT_ok.1 hx; exact fun e => by omega
  have tri' : ∀ {x y : ℕ} {t : Tensor K}, Post (Mat.factorsLe x y) (mkUT t) := fun {_ _ t} x hx => by
    obtain ⟨_, rfl⟩ := mkUT_ok.1 hx; exact fun e => by omega
  have ihk : ∀ {a b : Mat K} {k k' : Kind} {p q p' q' : ℕ} (ta tb : Bool), a.kind = some k → b.kind = some k' → a.factorsLe p q → b.factorsLe p' q' →
      Post (Mat.factorsLe (mmLeft k k' (if ta then q else p) (if tb then q' else p')) (mmRight k k' (if ta then p else q) (if tb then p' else q'))) ((ops c.code n).matmul ta tb a b) := by
    intro a b k k' p q p' q' ta tb ka kb ha hb
    have := ih ta tb ha hb
    rwa [kindC_am ka, kindC_am kb] at this
  -- products of solid matrices
  have sol : ∀ {a b : Mat K} {k k' : Kind} {p q p' q' x y : ℕ} (ta tb : Bool), a.kind = some k → b.kind = some k' → k.solid = true → k'.solid = true → a.factorsLe p q → b.factorsLe p' q' →
      Post (Mat.factorsLe x y) ((ops c.code n).matmul ta tb a b) := by
    intro a b k k' p q p' q' x y ta tb ka kb sk sk' ha hb
    refine (ihk ta tb ka kb ha hb).mono fun r hr => ?_
    rw [mmRight, solid_mm sk sk', solid_mm sk' sk] at hr
    exact hr.mono (by omega) (by omega)
  have numL : ∀ {s : Tensor K} {b : Mat K} {k' : Kind} {p' q' x y : ℕ} (ta tb : Bool), s.rank ≠ 0 → b.kind = some k' → k'.solid = true → b.factorsLe p' q' →
      Post (Mat.factorsLe x y) ((ops c.code n).matmul ta tb (.num s) b) := by
    intro s b k' p' q' x y ta tb hs kb sk hb
    have := ih (a := .num s) (p := 0) (q := 0) ta tb (fun h => absurd h hs) hb
    rw [kindC_num_rk hs, kindC_am kb, mmRight, solid_mm rfl sk, solid_mm sk rfl] at this
    exact this.mono fun r hr => hr.mono (by omega) (by omega)
  have numR : ∀ {s : Tensor K} {a : Mat K} {k : Kind} {p q x y : ℕ} (ta tb : Bool), s.rank ≠ 0 → a.kind = some k → k.solid = true → a.factorsLe p q →
      Post (Mat.factorsLe x y) ((ops c.code n).matmul ta tb a (.num s)) := by
    intro s a k p q x y ta tb hs ka sk ha
    have := ih (b := .num s) (p' := 0) (q' := 0) ta tb ha (fun h => absurd h hs)
    rw [kindC_num_rk hs, kindC_am ka, mmRight, solid_mm rfl sk, solid_mm sk rfl] at this
    exact this.mono fun r hr => hr.mono (by omega) (by omega)
  have trk : ∀ {t : Bool} {a : Mat K} {k : Kind} {p q : ℕ}, a.kind = some k → k.solid = true → a.factorsLe p q →
      Post (fun x : Mat K => ∃ k', x.kind = some k' ∧ k'.solid = true ∧ x.factorsLe 0 0) (trM t a) := by
    intro t a k p q ka sk ha x hx
    have k1 := kind_trM (t := t) ka x hx
    exact ⟨_, k1, solid_tr sk, solid_factors k1 (solid_tr sk) (trM_factors ha x hx)⟩
  generalize hA : (if ta = true then q else p) = A
  generalize hB : (if tb = true then q' else p') = B
  generalize hC : (if ta = true then p else q) = C
  generalize hD : (if tb = true then p' else q') = D
  unfold mmRun
  split <;> (subst hA; subst hB; subst hC; subst hD)
  · iterate 5 refine Post.skip fun _ => ?_
    intro x hx
    cases hx; exact True.intro
  · iterate 5 refine Post.skip fun _ => ?_
    intro x hx
    cases hx; exact True.intro
  · exact Post.skip fun _ => Post.pure True.intro
  · refine Post.skip fun _ => Post.skip fun _ x hx => ?_
    obtain ⟨_, rfl⟩ := mkDiag_ok.1 hx; trivial
  · -- diagAm
    refine Post.skip fun _ => (trk kb (T.2.2.2.2.1 rfl) hb).bind fun y hy => ?_
    obtain ⟨_, _, _, hy⟩ := hy
    exact (ops_mulFactors c n (a := mkDense _) (p := 0) (q := 0) True.intro hy).mono fun r hr => hr.mono (by omega) (by omega)
  · refine Post.skip fun _ => (trk ka (T.2.2.2.2.2.1 rfl) ha).bind fun y hy => ?_
    obtain ⟨_, _, _, hy⟩ := hy
    exact (ops_mulFactors c n (b := mkDense _) (p' := 0) (q' := 0) hy True.intro).mono fun r hr => hr.mono (by omega) (by omega)
  · -- constConst
    cases ka; cases kb
    refine Post.skip fun _ => Post.skip fun _ => Post.pure ?_
    exact ⟨by show 1 ≤ (if ta then q else p); have := ha.1; have := ha.2; split_ifs <;> omega, by show 1 ≤ (if tb then p' else q'); have := hb.1; have := hb.2; split_ifs <;> omega⟩
  · -- constAm
    cases ka
    have hs := T.2.2.1 rfl
    refine Post.skip fun _ => Post.skip fun _ => Post.skip fun v => ?_
    refine constLR_bound (l := v) (flip := false) ?_ ?_
    · rw [(mmLeft_lr k' hs _ _).2.2.1]; have := ha.1; have := ha.2; split_ifs <;> omega
    · rw [mmRight, (mmLeft_lr k' hs _ _).2.2.2]; have := ha.1; have := ha.2; split_ifs <;> omega
  · cases kb
    have hs := T.2.2.2.1 rfl
    refine Post.skip fun _ => Post.skip fun _ => Post.skip fun v => ?_
    refine constLR_bound (l := v) (flip := true) ?_ ?_
    · rw [(mmLeft_lr k hs _ _).2.2.2]; have := hb.1; have := hb.2; split_ifs <;> omega
    · rw [mmRight, (mmLeft_lr k hs _ _).2.2.1]; have := hb.1; have := hb.2; split_ifs <;> omega
  · -- ltLt
    refine Post.ite (Post.skip fun _ => tri) ((trk ka (by cases ka; rfl) ha).bind fun x hx => (trk kb (by cases kb; rfl) hb).bind fun y hy => ?_)
    obtain ⟨k1, h1, h2, h3⟩ := hx
    obtain ⟨k2, h4, h5, h6⟩ := hy
    exact sol _ _ h1 h4 h2 h5 h3 h6
  · -- ltAm
    have hs := T.2.2.2.2.2.2.2.1 rfl
    cases a <;> first | exact Post.error | exact numL _ _ ha kb hs hb
  · have hs := T.2.2.2.2.2.2.2.2.1 rfl
    cases b <;> first | exact Post.error | exact numR _ _ hb ka hs ha
  · refine Post.ite (Post.skip fun _ => Post.skip fun _ => tri) ((trk ka (by cases ka; rfl) ha).bind fun x hx => ?_)
    obtain ⟨k1, h1, h2, h3⟩ := hx
    exact sol _ _ h1 kb h2 (by cases kb; rfl) h3 hb
  · refine Post.ite (Post.skip fun _ => Post.skip fun _ => tri) ((trk kb (by cases kb; rfl) hb).bind fun x hx => ?_)
    obtain ⟨k1, h1, h2, h3⟩ := hx
    exact sol _ _ ka h1 (by cases ka; rfl) h2 ha h3
  · refine Post.ite (Post.skip fun _ => tri') ((trk ka (by cases ka; rfl) ha).bind fun x hx => (trk kb (by cases kb; rfl) hb).bind fun y hy => ?_)
    obtain ⟨k1, h1, h2, h3⟩ := hx
    obtain ⟨k2, h4, h5, h6⟩ := hy
    exact sol _ _ h1 h4 h2 h5 h3 h6
  · refine Post.ite (Post.skip fun _ => Post.skip fun _ => tri') ((trk ka (by cases ka; rfl) ha).bind fun x hx => ?_)
    obtain ⟨k1, h1, h2, h3⟩ := hx
    exact sol _ _ h1 kb h2 (by cases kb; rfl) h3 hb
  · refine Post.ite (Post.skip fun _ => Post.skip fun _ => tri') ((trk kb (by cases kb; rfl) hb).bind fun x hx => ?_)
    obtain ⟨k1, h1, h2, h3⟩ := hx
    exact sol _ _ ka h1 (by cases ka; rfl) h2 ha h3
  · -- lrLr
    obtain ⟨rfl, rfl⟩ := T.2.2.2.2.2.2.1 rfl
    unfold matmulLRLR
    refine Post.skip fun _ => Post.bind (P := fun x => x.kind = some .lr ∧ x.factorsLe (if ta then q else p) (if ta then p else q)) (fun x hx => ⟨?_, trM_factors ha x hx⟩) fun x hx =>
      Post.bind (P := fun x => x.kind = some .lr ∧ x.factorsLe (if tb then q' else p') (if tb then p' else q')) (fun y hy => ⟨?_, trM_factors hb y hy⟩) fun y hy => ?_
    · have := kind_trM (t := ta) ka x hx; cases ta <;> exact this
    · have := kind_trM (t := tb) kb y hy; cases tb <;> exact this
    · obtain ⟨al, ar, am, rfl⟩ := lr_of_kind hx.1
      obtain ⟨bl, br, bm, rfl⟩ := lr_of_kind hy.1
      obtain ⟨_, p1, q1, hf, i1, i2⟩ := hx
      obtain ⟨_, p2, q2, hg, j1, j2⟩ := hy
      obtain ⟨⟨_, e1⟩, _, _⟩ := hf.shapes
      obtain ⟨_, ⟨_, e2⟩, _⟩ := hg.shapes
      refine (mm_flat hf.flat2.2.1 hg.flat2.1).bind fun mid hmid => (m3_flat hf.flat2.2.2 hmid hg.flat2.2.2).bind fun mid hmid => Post.skip fun s => Post.ite ?_ ?_
      · refine Post.skip fun d => Post.bind (P := fun m : Mat K => m.flatKind) (fun m hm => ?_) fun m hm => mkLR_sides hf.kinds.1 hg.kinds.2.1 hm e1 e2 i1 j2
        obtain ⟨_, rfl⟩ := mkDiag_ok.1 hm
        exact .inr (.inr (.inl rfl))
      · exact mkLR_sides hf.kinds.1 hg.kinds.2.1 hmid.1 e1 e2 i1 j2
  · -- lrAm
    obtain ⟨rfl, hs⟩ := T.1 rfl
    refine Post.skip fun _ => Post.bind (P := fun x => x.kind = some .lr ∧ x.factorsLe (if ta then q else p) (if ta then p else q)) (fun x hx => ⟨?_, trM_factors ha x hx⟩) fun x hx => ?_
    · have := kind_trM (t := ta) ka x hx; cases ta <;> exact this
    · obtain ⟨l, r, m, rfl⟩ := lr_of_kind hx.1
      obtain ⟨_, p1, q1, hf, i1, i2⟩ := hx
      refine Post.bind (P := fun y : Mat K => (∃ k1, y.kind = some k1 ∧ k1.solid = true) ∧ TriRk y) (fun y hy => ?_) fun y hy => ?_
      · obtain ⟨k1, h1, h2, h3⟩ := trk (t := tb) kb hs hb y hy
        exact ⟨⟨k1, h1, h2⟩, h3.tri⟩
      · obtain ⟨⟨k1, h1, h2⟩, h3⟩ := hy
        obtain ⟨t, u, f1, f2, _⟩ := id hf
        refine (mm_arrR h1 h2 h3 f2).bind fun r' hr' => mkLR_mid hf.kinds.1 hr' hf.kinds.2.2 hf.shapes.2.2 ?_ ?_
        · rw [(mmLeft_lr k' hs _ _).1]; exact i1
        · rw [mmRight, (mmLeft_lr k' hs _ _).2.1]; exact i2
  · obtain ⟨rfl, hs⟩ := T.2.1 rfl
    refine Post.skip fun _ => Post.bind (P := fun x => x.kind = some .lr ∧ x.factorsLe (if tb then q' else p') (if tb then p' else q')) (fun x hx => ⟨?_, trM_factors hb x hx⟩) fun x hx => ?_
    · have := kind_trM (t := tb) kb x hx; cases tb <;> exact this
    · obtain ⟨l, r, m, rfl⟩ := lr_of_kind hx.1
      obtain ⟨_, p1, q1, hf, i1, i2⟩ := hx
      refine Post.bind (P := fun y : Mat K => (∃ k1, y.kind = some k1 ∧ k1.solid = true) ∧ TriRk y) (fun y hy => ?_) fun y hy => ?_
      · obtain ⟨k1, h1, h2, h3⟩ := trk (t := ta) ka hs ha y hy
        exact ⟨⟨k1, h1, h2⟩, h3.tri⟩
      · obtain ⟨⟨k1, h1, h2⟩, h3⟩ := hy
        obtain ⟨t, u, f1, f2, _⟩ := id hf
        refine (mm_arrR h1 h2 h3 f1).bind fun l' hl' => mkLR_mid hl' hf.kinds.2.1 hf.kinds.2.2 hf.shapes.2.2 ?_ ?_
        · rw [(mmLeft_lr k hs _ _).2.1]; exact i1
        · rw [mmRight, (mmLeft_lr k hs _ _).1]; exact i2
  · -- lrConst
    obtain rfl := T.2.2.2.2.2.2.2.2.2.1 rfl
    cases kb
    refine (constToLR_factors hb.1 hb.2).bind fun y hy => ?_
    have := ihk ta tb ka hy.1 ha hy.2
    exact this
  · obtain rfl := T.2.2.2.2.2.2.2.2.2.2.1 rfl
    cases ka
    refine (constToLR_factors ha.1 ha.2).bind fun y hy => ?_
    have := ihk ta tb hy.1 kb hy.2 hb
    exact this
  · -- wbAm
    cases ka
    rename_i d l r m'
    have w1 := (mmLeft_wb k' (if ta then q else p) (if tb then q' else p')).1 (W.1 rfl)
    refine (ihk (k := .diag) ta tb rfl kb (z d) hb).bind fun x hx => (ihk (k := .lr) (a := .lr l r m') ta tb rfl kb ha hb).bind fun y hy => (ops_addFactors c n hx hy).mono fun r hr => hr.mono ?_ ?_
    · simpa using w1
    · simp only [mmRight, ite_self]
      have : ∀ x y : ℕ, k' ≠ .zero → mmLeft k' .diag y 0 + mmLeft k' .lr y x ≤ mmLeft k' .wb y x := by
        intro x y h0; clear * - h0; cases k' <;> simp [mmLeft] at * <;> omega
      exact this _ _ (W.1 rfl)
  · cases kb
    rename_i d l r m'
    refine (ihk (k' := .diag) ta tb ka rfl ha (z d)).bind fun x hx => (ihk (k' := .lr) (b := .lr l r m') ta tb ka rfl ha hb).bind fun y hy => (ops_addFactors c n hx hy).mono fun r hr => hr.mono ?_ ?_
    · simp only [ite_self]
      exact (mmLeft_wb k _ _).2 (W.2 rfl).1 (W.2 rfl).2
    · simp only [mmRight, ite_self]
      have : ∀ x y : ℕ, k ≠ .zero → k ≠ .wb → mmLeft .diag k 0 y + mmLeft .lr k x y ≤ mmLeft .wb k x y := by
        intro x y h0 h1; clear * - h0 h1; cases k <;> simp [mmLeft] at * <;> omega
      exact this _ _ (W.2 rfl).1 (W.2 rfl).2
  · exact Post.skip fun _ => Post.skip fun _ => Post.skip fun _ => Post.skip fun _ => Post.pure True.intro
  · -- kronAm
    unfold matmulKronAm
    iterate 7 refine Post.skip fun _ => ?_
    exact Post.ite (Post.skip fun _ => Post.skip fun _ => Post.pure True.intro) (Post.skip fun _ => Post.skip fun _ => Post.pure True.intro)
  · -- amKron
    obtain ⟨s1, s2⟩ := T.2.2.2.2.2.2.2.2.2.2.2.1 rfl
    refine (sol (x := 0) (y := 0) _ _ kb ka s2 s1 hb ha).bind fun x hx => (transposeM_factors hx).mono fun r hr => hr.mono (by omega) (by omega)
  · obtain rfl := T.2.2.2.2.2.2.2.2.2.2.2.2.1 rfl
    cases a <;> simp only [Mat.kind, Option.some.injEq, reduceCtorEq] at ka
    exact (ops_kronRk c.code n _ _).bind fun t ht => numL _ _ ht kb (by cases kb; rfl) hb
  · obtain rfl := T.2.2.2.2.2.2.2.2.2.2.2.2.2 rfl
    cases b <;> simp only [Mat.kind, Option.some.injEq, reduceCtorEq] at kb
    exact (ops_kronRk c.code n _ _).bind fun t ht => numR _ _ ht ka (by cases ka; rfl) ha
  · exact Post.error

theorem ops_mmFactors (c : Cfg K) (n : ℕ) : MmFactors c.code (ops c.code n) := by
  induction n with
  | zero => exact fun _ _ _ _ => Post.error
  | succ n ih =>
    intro a b p q p' q' ta tb ha hb
    show Post _ (stepMatmul c.code (ops c.code n) ta tb a b)
    generalize hP : Mat.factorsLe (K := K) (mmLeft (kindC c.code a) (kindC c.code b) (if ta = true then q else p) (if tb = true then q' else p'))
      (mmRight (kindC c.code a) (kindC c.code b) (if ta = true then p else q) (if tb = true then p' else q')) = P
    have hs : ∀ x, stepMatmul c.code (ops c.code n) ta tb a b = .ok x → P x := by
      intro x hx
      unfold stepMatmul at hx
      split at hx
      · obtain ⟨v, hv, hx⟩ := bind_ok_iff.1 hx
        cases hx
        subst hP
        intro h0
        have := nMatmul_rank2 hv
        omega
      · simp only [kind_convertAM] at hx
        split at hx
        · rename_i m e
          subst hP
          exact mmRun_factors ih ta tb ha.convert hb.convert (kind_convertAM _ _) (kind_convertAM _ _) e x hx
        · cases hx
    exact hs

end Verif
