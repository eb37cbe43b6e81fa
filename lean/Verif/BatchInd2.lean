/-
C39 for quadratic forms, ratios, diagonals of products, diagonals, traces and Kronecker products: batch element `β` of the result depends only on batch element `β` of the operands.
-/
import Verif.BatchInd
import Verif.Kron

set_option linter.unusedSectionVars false

namespace Verif

variable {K : Type} [Field K] [LinearOrder K] [IsStrictOrderedRing K]

/-- A batch of matrices as the leaf of an expression. -/
theorem leaf_typed {S : Shp} {r c : ℕ} {t : Tensor K} (g : Good S t) (h1 : t.rows = r) (h2 : t.cols = c) : (LExpr.mat (.dense t)).Typed S r c :=
  ⟨⟨g.rank, g.fits⟩, g.rank, h1, h2, trivial⟩

/-- `bᵀ a⁻¹ c` as an expression. -/
def iqfE (a b c : Tensor K) : LExpr K := .matmul false false (.matmul true false (.mat (.dense b)) (.inv (.mat (.dense a)))) (.mat (.dense c))

theorem iqfE_typed {S : Shp} {a b c : Tensor K} (ga : Good S a) (gb : Good S b) (gc : Good S c) (h1 : a.rows = a.cols) (h2 : b.rows = a.rows) (h3 : c.rows = a.rows) :
    (iqfE a b c).Typed S b.cols c.cols :=
  ⟨a.rows, ⟨a.rows, leaf_typed gb h2 rfl, rfl, leaf_typed ga rfl h1.symm⟩, leaf_typed gc h3 rfl⟩

theorem iqfE_denotes {a b c ai p q : Tensor K} (h2 : 2 ≤ b.rank) (hi : IsInverse a ai) (h : IsMatProd (tr b) ai p) (h' : IsMatProd p c q) : (iqfE a b c).Denotes q :=
  ⟨p, c, p, c, ⟨b, ai, tr b, ai, rfl, ⟨a, rfl, hi⟩, .of_eq h2 rfl, rfl, h⟩, rfl, rfl, rfl, h'⟩

/-- `bᵀ a⁻¹ c` in a batch element. -/
theorem iqf_batch {S S' : Shp} {β β' : Idx} (hβ : InRange S β) (hβ' : InRange S' β') {a b c ai p q a' b' c' ai' p' q' : Tensor K}
    (ga : Good S a) (gb : Good S b) (gc : Good S c) (ga' : Good S' a') (gb' : Good S' b') (gc' : Good S' c')
    (sa : SameBatch β β' a a') (sb : SameBatch β β' b b') (sc : SameBatch β β' c c')
    (hi : IsInverse a ai) (hp : IsMatProd (tr b) ai p) (hq : IsMatProd p c q) (hi' : IsInverse a' ai') (hp' : IsMatProd (tr b') ai' p') (hq' : IsMatProd p' c' q') :
    SameBatch β β' q q' ∧ Rep S b.cols c.cols q q.at' ∧ Rep S' b.cols c.cols q' q'.at' := by
  have h2 : b.rows = a.rows := hp.inner.trans (rows_of_sh hi.shape)
  have e : p.cols = a.cols := by
    have : p.cols = ai.cols := by rw [Tensor.cols, hp.shape]; rfl
    rw [this, cols_of_sh hi.shape]
  have h3 : c.rows = a.rows := by rw [← hq.inner, e, hi.square]
  have t := iqfE_typed ga gb gc hi.square h2 h3
  have t' := iqfE_typed ga' gb' gc' hi'.square (by rw [← sb.rows, ← sa.rows, h2]) (by rw [← sc.rows, ← sa.rows, h3])
  rw [← sb.cols, ← sc.cols] at t'
  have d := iqfE_denotes gb.rank hi hp hq
  have d' := iqfE_denotes gb'.rank hi' hp' hq'
  have r := d.rep t
  have r' := d'.rep t'
  refine ⟨⟨r.rows.trans r'.rows.symm, r.cols.trans r'.cols.symm, ?_⟩, r, r'⟩
  rw [r.rows, r.cols]
  exact LExpr.Denotes.batch hβ hβ' (.matmul (.matmul (.mat (a := .dense b) (b := .dense b') sb) (.inv (.mat (a := .dense a) (b := .dense a') sa))) (.mat (a := .dense c) (b := .dense c') sc)) t t' ⟨⟨trivial, trivial⟩, trivial⟩ d d'

/-- What is needed for `B.iqf(a, b, c)` to be `bᵀ a⁻¹ c` over the batch `S` (see `C23_iqf`). -/
structure IqfArgs (S : Shp) (same : Bool) (a b c : Mat K) : Prop where
  wa : a.WF S
  wb : b.WF S
  wc : c.WF S
  rankB : 2 ≤ (den b).rank
  rankC : 2 ≤ (den c).rank
  dom : a.QfDom
  inv : ∃ ai, IsInverse (den a) ai
  same : same = true → c = b
  zero : ¬ (b.kind = some .zero ∧ c.kind = some .zero)

/-- C39.  Batch element `β` of `B.iqf(a, b, c)` depends only on batch element `β` of the three matrices. -/
theorem C39_iqf (cf : Cfg K) {lin : LinEnv K} (hl : lin.Lawful) {S S' : Shp} {β β' : Idx} (hβ : InRange S β) (hβ' : InRange S' β') {same same' : Bool} {a b c r a' b' c' r' : Mat K}
    (h : IqfArgs S same a b c) (h' : IqfArgs S' same' a' b' c')
    (sa : SameBatch β β' (den a) (den a')) (sb : SameBatch β β' (den b) (den b')) (sc : SameBatch β β' (den c) (den c'))
    (hr : LReturns cf lin (fun B L => iqfM B L same a b c) r) (hx : LExact cf lin fun B L => iqfM B L same a b c)
    (hr' : LReturns cf lin (fun B L => iqfM B L same' a' b' c') r') (hx' : LExact cf lin fun B L => iqfM B L same' a' b' c') :
    SameBatch β β' (den r) (den r') := by
  obtain ⟨ai, hi⟩ := h.inv
  obtain ⟨ai', hi'⟩ := h'.inv
  obtain ⟨_, p, hp, hq⟩ := C23_iqf cf hl h.wa h.wb h.wc h.rankB h.rankC h.dom hi h.same h.zero hr hx
  obtain ⟨_, p', hp', hq'⟩ := C23_iqf cf hl h'.wa h'.wb h'.wc h'.rankB h'.rankC h'.dom hi' h'.same h'.zero hr' hx'
  exact (iqf_batch hβ hβ' (h.wa.good hi.rank) (h.wb.good h.rankB) (h.wc.good h.rankC) (h'.wa.good hi'.rank) (h'.wb.good h'.rankB) (h'.wc.good h'.rankC)
    sa sb sc hi hp hq hi' hp' hq').1

/-- A diagonal in a batch element. -/
theorem IsDiagonalOf.batch {S S' : Shp} {β β' : Idx} (hβ : InRange S β) (hβ' : InRange S' β') {q q' v v' : Tensor K} (g : Good S q) (g' : Good S' q') (hs : SameBatch β β' q q')
    (h : IsDiagonalOf q v) (h' : IsDiagonalOf q' v') : v.cols = v'.cols ∧ ∀ i, i < v.cols → v.vat β i = v'.vat β' i := by
  have key {S : Shp} {β : Idx} (hβ : InRange S β) {q v : Tensor K} (g : Good S q) (h : IsDiagonalOf q v) : v.cols = min q.rows q.cols ∧ ∀ i, i < min q.rows q.cols → v.vat β i = q.at' β i i := by
    refine ⟨by rw [Tensor.cols, h.shape]; rfl, fun i hi => ?_⟩
    have e : v.sh.tail = q.bt := by rw [h.shape]; rfl
    have := h.entries _ i (inRange_clip β (g.fits.pos hβ.pos)) hi
    rw [Tensor.vat_clip (by rw [e]; exact Fits.refl _), Tensor.at'_clip (Fits.refl _)] at this
    exact this
  obtain ⟨k1, k2⟩ := key hβ g h
  obtain ⟨k1', k2'⟩ := key hβ' g' h'
  rw [← hs.rows, ← hs.cols] at k1' k2'
  refine ⟨k1.trans k1'.symm, fun i hi => ?_⟩
  rw [k1] at hi
  rw [k2 i hi, k2' i hi]
  exact hs.entries i i (by omega) (by omega)

/-- C39.  Batch element `β` of `B.iqf_diag(a, b, c)` depends only on batch element `β` of the three matrices. -/
theorem C39_iqf_diag (cf : Cfg K) {lin : LinEnv K} (hl : lin.Lawful) {S S' : Shp} {β β' : Idx} (hβ : InRange S β) (hβ' : InRange S' β') {same same' : Bool} {a b c a' b' c' : Mat K}
    {v v' : Tensor K} (h : IqfArgs S same a b c) (h' : IqfArgs S' same' a' b' c') (hbr : (den b).rows = (den a).rows) (hcr : (den c).rows = (den a).rows)
    (hbc : (den b).cols = (den c).cols) (hd : a.kind = some .wb → b.DiagOk) (hd' : a'.kind = some .wb → b'.DiagOk)
    (sa : SameBatch β β' (den a) (den a')) (sb : SameBatch β β' (den b) (den b')) (sc : SameBatch β β' (den c) (den c'))
    (hr : LReturns cf lin (fun B L => iqfDiagM B L same a b c) v) (hx : LExact cf lin fun B L => iqfDiagM B L same a b c)
    (hr' : LReturns cf lin (fun B L => iqfDiagM B L same' a' b' c') v') (hx' : LExact cf lin fun B L => iqfDiagM B L same' a' b' c') :
    v.cols = v'.cols ∧ ∀ i, i < v.cols → v.vat β i = v'.vat β' i := by
  obtain ⟨ai, hi⟩ := h.inv
  obtain ⟨ai', hi'⟩ := h'.inv
  obtain ⟨p, q, hp, hq, hv⟩ := C23_iqf_diag cf hl h.wa h.wb h.wc h.rankB h.rankC h.dom hi h.same h.zero hbr hcr hbc hd hr hx
  obtain ⟨p', q', hp', hq', hv'⟩ := C23_iqf_diag cf hl h'.wa h'.wb h'.wc h'.rankB h'.rankC h'.dom hi' h'.same h'.zero (by rw [← sb.rows, ← sa.rows, hbr])
    (by rw [← sc.rows, ← sa.rows, hcr]) (by rw [← sb.cols, ← sc.cols, hbc]) hd' hr' hx'
  obtain ⟨s, r, r'⟩ := iqf_batch hβ hβ' (h.wa.good hi.rank) (h.wb.good h.rankB) (h.wc.good h.rankC) (h'.wa.good hi'.rank) (h'.wb.good h'.rankB) (h'.wc.good h'.rankC)
    sa sb sc hi hp hq hi' hp' hq'
  exact IsDiagonalOf.batch hβ hβ' ⟨r.rank, r.bt⟩ ⟨r'.rank, r'.bt⟩ s hv hv'

/-- What is needed for `B.ratio(a, b)` to be the trace of `b⁻¹ a` (see `C23_ratio`). -/
structure RatioArgs (a b : Mat K) : Prop where
  va : a.Valid
  vb : b.Valid
  compat : BatchCompat a b
  rank : 2 ≤ (den a).rank
  square : (den a).rows = (den a).cols
  rows : (den a).rows = (den b).rows
  domA : b.kind ≠ some .wb → a.CholDom ∧ a.cholNZ = true
  domB : b.QfDom
  inv : ∃ bi, IsInverse (den b) bi

/-- C39.  Batch element `β` of `B.ratio(a, b)` depends only on batch element `β` of the two matrices. -/
theorem C39_ratio (cf : Cfg K) {lin : LinEnv K} (hl : lin.Lawful) {a b a' b' : Mat K} {v v' : Tensor K} (h : RatioArgs a b) (h' : RatioArgs a' b')
    {β β' : Idx} (hβ : InRange (bsh (den a).bt (den b).bt) β) (hβ' : InRange (bsh (den a').bt (den b').bt) β')
    (sa : SameBatch β β' (den a) (den a')) (sb : SameBatch β β' (den b) (den b'))
    (hr : LReturns cf lin (fun B L => ratioM B L a b) v) (hx : LExact cf lin fun B L => ratioM B L a b)
    (hr' : LReturns cf lin (fun B L => ratioM B L a' b') v') (hx' : LExact cf lin fun B L => ratioM B L a' b') : v.get β = v'.get β' := by
  obtain ⟨bi, hi⟩ := h.inv
  obtain ⟨bi', hi'⟩ := h'.inv
  have k := C23_ratio cf hl h.va h.vb h.compat h.rank h.square h.rows h.domA h.domB hi hr hx
  have k' := C23_ratio cf hl h'.va h'.vb h'.compat h'.rank h'.square h'.rows h'.domA h'.domB hi' hr' hx'
  obtain ⟨wa, wb⟩ := h.va.common h.vb h.compat
  obtain ⟨wa', wb'⟩ := h'.va.common h'.vb h'.compat
  have c : Compat (den a).bt (den b).bt := (wa.good h.rank).fits.compat (wb.good hi.rank).fits
  have c' : Compat (den a').bt (den b').bt := (wa'.good h'.rank).fits.compat (wb'.good hi'.rank).fits
  have e := LExpr.Denotes.batch hβ hβ' (e := .inv (.mat (.dense (den b)))) (e' := .inv (.mat (.dense (den b')))) (.inv (.mat (a := .dense (den b)) (b := .dense (den b')) sb))
    (r := (den b).rows) (c := (den b).rows) ⟨rfl, leaf_typed ⟨hi.rank, c.fits_right⟩ rfl hi.square.symm⟩ ⟨rfl, leaf_typed ⟨hi'.rank, c'.fits_right⟩ sb.rows.symm (by rw [← hi'.square, sb.rows])⟩
    trivial ⟨_, rfl, hi⟩ ⟨_, rfl, hi'⟩
  rw [k.entries β (by rw [bt_of_sh hi.shape]; exact hβ), k'.entries β' (by rw [bt_of_sh hi'.shape]; exact hβ'), rows_of_sh hi.shape, rows_of_sh hi'.shape, ← sb.rows]
  refine Finset.sum_congr rfl fun i h1 => Finset.sum_congr rfl fun j h2 => ?_
  rw [Finset.mem_range] at h1 h2
  rw [e i j h1 h2, sa.entries j i (by rw [h.rows]; exact h2) (by rw [← h.square, h.rows]; exact h1)]

/-- C39.  Batch element `β` of `B.diag(a)` depends only on batch element `β` of `a`. -/
theorem C39_diag (cf : Cfg K) {a a' : Mat K} {v v' : Tensor K} (ha : a.Valid) (h2 : 2 ≤ (den a).rank) (hd : a.DiagOk) (ha' : a'.Valid) (h2' : 2 ≤ (den a').rank) (hd' : a'.DiagOk)
    (hr : Returns cf (fun B => B.diag a) v) (hx : Exact cf fun B => B.diag a) (hr' : Returns cf (fun B => B.diag a') v') (hx' : Exact cf fun B => B.diag a')
    {β β' : Idx} (hβ : InRange (den a).bt β) (hβ' : InRange (den a').bt β') (hs : SameBatch β β' (den a) (den a')) :
    v.cols = v'.cols ∧ ∀ i, i < v.cols → v.vat β i = v'.vat β' i :=
  IsDiagonalOf.batch hβ hβ' ⟨h2, Fits.refl _⟩ ⟨h2', Fits.refl _⟩ hs (C11_diag cf ha h2 hd hr hx) (C11_diag cf ha' h2' hd' hr' hx')

/-- C39.  Batch element `β` of `B.trace(a)` depends only on batch element `β` of `a`. -/
theorem C39_trace (cf : Cfg K) {a a' : Mat K} {v v' : Tensor K} (ha : a.Valid) (h2 : 2 ≤ (den a).rank) (hd : a.DiagOk) (ha' : a'.Valid) (h2' : 2 ≤ (den a').rank) (hd' : a'.DiagOk)
    (hr : Returns cf (fun B => traceM B a) v) (hx : Exact cf fun B => traceM B a) (hr' : Returns cf (fun B => traceM B a') v') (hx' : Exact cf fun B => traceM B a')
    {β β' : Idx} (hβ : InRange (den a).bt β) (hβ' : InRange (den a').bt β') (hs : SameBatch β β' (den a) (den a')) : v.get β = v'.get β' := by
  rw [(C11_trace cf ha h2 hd hr hx).entries β hβ, (C11_trace cf ha' h2' hd' hr' hx').entries β' hβ', ← hs.rows, ← hs.cols]
  refine Finset.sum_congr rfl fun i hi => ?_
  rw [Finset.mem_range] at hi
  exact hs.entries i i (by omega) (by omega)

/-- C39.  Batch element `β` of `B.kron(a, b)` depends only on batch element `β` of the two matrices. -/
theorem C39_kron (cf : Cfg K) {a b r a' b' r' : Mat K} (ha : a.Valid) (hb : b.Valid) (hc : BatchCompat a b) (ha' : a'.Valid) (hb' : b'.Valid) (hc' : BatchCompat a' b')
    (hr : kronM cf.code a b = .ok r) (hr' : kronM cf.code a' b' = .ok r') {β β' : Idx} (hβ : InRange (den r).bt β) (hβ' : InRange (den r').bt β')
    (sa : SameBatch β β' (upT (den a)) (upT (den a'))) (sb : SameBatch β β' (upT (den b)) (upT (den b'))) : SameBatch β β' (den r) (den r') := by
  obtain ⟨_, k⟩ := C18_kron cf ha hb hc hr
  obtain ⟨_, k'⟩ := C18_kron cf ha' hb' hc' hr'
  have er : (den r).rows = (upT (den a)).rows * (upT (den b)).rows := by rw [Tensor.rows, k.shape]; rfl
  have ec : (den r).cols = (upT (den a)).cols * (upT (den b)).cols := by rw [Tensor.cols, k.shape]; rfl
  have er' : (den r').rows = (upT (den a')).rows * (upT (den b')).rows := by rw [Tensor.rows, k'.shape]; rfl
  have ec' : (den r').cols = (upT (den a')).cols * (upT (den b')).cols := by rw [Tensor.cols, k'.shape]; rfl
  refine ⟨by rw [er, er', sa.rows, sb.rows], by rw [ec, ec', sa.cols, sb.cols], fun i j hi hj => ?_⟩
  rw [er] at hi
  rw [ec] at hj
  have pr : 0 < (upT (den b)).rows := Nat.pos_of_ne_zero fun h => by simp [h] at hi
  have pc : 0 < (upT (den b)).cols := Nat.pos_of_ne_zero fun h => by simp [h] at hj
  have i1 : i / (upT (den b)).rows < (upT (den a)).rows := Nat.div_lt_of_lt_mul (by rwa [Nat.mul_comm])
  have j1 : j / (upT (den b)).cols < (upT (den a)).cols := Nat.div_lt_of_lt_mul (by rwa [Nat.mul_comm])
  have i2 := Nat.mod_lt i pr
  have j2 := Nat.mod_lt j pc
  have e := k.entries β _ _ _ _ hβ i1 j1 i2 j2
  have e' := k'.entries β' (i / (upT (den b)).rows) (j / (upT (den b)).cols) (i % (upT (den b)).rows) (j % (upT (den b)).cols) hβ' (sa.rows ▸ i1) (sa.cols ▸ j1) (sb.rows ▸ i2) (sb.cols ▸ j2)
  rw [← sb.rows, ← sb.cols, Nat.div_add_mod', Nat.div_add_mod'] at e'
  rw [Nat.div_add_mod', Nat.div_add_mod'] at e
  rw [e, e', sa.entries _ _ i1 j1, sb.entries _ _ i2 j2]

/-! ### Example: a batch of two and its second element -/

namespace Ex
/-- Two diagonal matrices with square entries. -/
def sQ : Mat ℚ := .diag (ofFn [2, 2] fun i => (1 + i 0 + 2 * i 1) * (1 + i 0 + 2 * i 1))
/-- The second. -/
def tQ : Mat ℚ := .diag (ofFn [2] fun i => (1 + i 0 + 2) * (1 + i 0 + 2))
theorem sameQ : SameBatch b1 o (den sQ) (den tQ) :=
  ⟨rfl, rfl, fun i j hi hj => (by decide +kernel : ∀ i < 2, ∀ j < 2, (den sQ).at' b1 i j = (den tQ).at' o i j) i hi j hj⟩
theorem b1_in : InRange [2] b1 := inRange_cons.2 ⟨by decide, fun _ => Nat.one_pos⟩
theorem o_in : InRange [] o := fun _ => Nat.one_pos
theorem qD_wf : sQ.WF [2] := ⟨by decide, Fits.refl _⟩
theorem tD_wf : tQ.WF [] := ⟨by decide, Fits.refl _⟩
theorem bA_wf : bA.WF [2] := ⟨by decide, Fits.refl _⟩
theorem sA_wf : sA.WF [] := ⟨by decide, Fits.refl _⟩
theorem bIqf : IqfArgs [2] false sQ bA bA :=
  ⟨qD_wf, bA_wf, bA_wf, by decide, by decide, ⟨fun h => by simp [sQ, Mat.kind] at h, fun _ => trivial⟩, exists_inverse ⟨_, qD_wf⟩ (n := 8) (k := 8) (by decide +kernel),
    (fun h => nomatch h), fun h => by simp [bA, Mat.kind] at h⟩
theorem sIqf : IqfArgs [] true tQ sA sA :=
  ⟨tD_wf, sA_wf, sA_wf, by decide, by decide, ⟨fun h => by simp [tQ, Mat.kind] at h, fun _ => trivial⟩, exists_inverse ⟨_, tD_wf⟩ (n := 8) (k := 8) (by decide +kernel),
    fun _ => rfl, fun h => by simp [sA, Mat.kind] at h⟩
theorem bRatio : RatioArgs sQ sQ :=
  ⟨⟨_, qD_wf⟩, ⟨_, qD_wf⟩, (Fits.refl _).compat (Fits.refl _), by decide, rfl, rfl, fun _ => ⟨trivial, rfl⟩, ⟨fun h => by simp [sQ, Mat.kind] at h, fun _ => trivial⟩,
    exists_inverse ⟨_, qD_wf⟩ (n := 8) (k := 8) (by decide +kernel)⟩
theorem sRatio : RatioArgs tQ tQ :=
  ⟨⟨_, tD_wf⟩, ⟨_, tD_wf⟩, (Fits.refl _).compat (Fits.refl _), by decide, rfl, rfl, fun _ => ⟨trivial, rfl⟩, ⟨fun h => by simp [tQ, Mat.kind] at h, fun _ => trivial⟩,
    exists_inverse ⟨_, tD_wf⟩ (n := 8) (k := 8) (by decide +kernel)⟩
end Ex

example : ∃ r r', LReturns Ex.cfg Ex.lin (fun B L => iqfM B L false Ex.sQ Ex.bA Ex.bA) r ∧ LReturns Ex.cfg Ex.lin (fun B L => iqfM B L true Ex.tQ Ex.sA Ex.sA) r' ∧
    SameBatch Ex.b1 Ex.o (den r) (den r') := by
  obtain ⟨r, h, hx⟩ := Ex.lmeets (LCalls.iqf false Ex.sQ Ex.bA Ex.bA) (n := 8) (m := 8) (by decide +kernel)
  obtain ⟨r', h', hx'⟩ := Ex.lmeets (LCalls.iqf true Ex.tQ Ex.sA Ex.sA) (n := 8) (m := 8) (by decide +kernel)
  exact ⟨r, r', h, h', C39_iqf Ex.cfg Ex.lin_lawful Ex.b1_in Ex.o_in Ex.bIqf Ex.sIqf Ex.sameQ Ex.sameA Ex.sameA h hx h' hx'⟩

example : ∃ v v', LReturns Ex.cfg Ex.lin (fun B L => iqfDiagM B L false Ex.sQ Ex.bA Ex.bA) v ∧ LReturns Ex.cfg Ex.lin (fun B L => iqfDiagM B L true Ex.tQ Ex.sA Ex.sA) v' ∧
    v.cols = v'.cols ∧ ∀ i, i < v.cols → v.vat Ex.b1 i = v'.vat Ex.o i := by
  obtain ⟨v, h, hx⟩ := Ex.lmeets (LCalls.iqfDiag false Ex.sQ Ex.bA Ex.bA) (n := 8) (m := 8) (by decide +kernel)
  obtain ⟨v', h', hx'⟩ := Ex.lmeets (LCalls.iqfDiag true Ex.tQ Ex.sA Ex.sA) (n := 8) (m := 8) (by decide +kernel)
  exact ⟨v, v', h, h', C39_iqf_diag Ex.cfg Ex.lin_lawful Ex.b1_in Ex.o_in Ex.bIqf Ex.sIqf rfl rfl rfl (fun h => by simp [Ex.sQ, Mat.kind] at h) (fun h => by simp [Ex.tQ, Mat.kind] at h)
    Ex.sameQ Ex.sameA Ex.sameA h hx h' hx'⟩

example : ∃ v v', LReturns Ex.cfg Ex.lin (fun B L => ratioM B L Ex.sQ Ex.sQ) v ∧ LReturns Ex.cfg Ex.lin (fun B L => ratioM B L Ex.tQ Ex.tQ) v' ∧ v.get Ex.b1 = v'.get Ex.o := by
  obtain ⟨v, h, hx⟩ := Ex.lmeets (LCalls.ratio Ex.sQ Ex.sQ) (n := 8) (m := 8) (by decide +kernel)
  obtain ⟨v', h', hx'⟩ := Ex.lmeets (LCalls.ratio Ex.tQ Ex.tQ) (n := 8) (m := 8) (by decide +kernel)
  exact ⟨v, v', h, h', C39_ratio Ex.cfg Ex.lin_lawful Ex.bRatio Ex.sRatio Ex.b1_in Ex.o_in Ex.sameQ Ex.sameQ h hx h' hx'⟩

example : ∃ v v', Returns Ex.cfg (fun B => B.diag Ex.bA) v ∧ Returns Ex.cfg (fun B => B.diag Ex.sA) v' ∧ v.cols = v'.cols ∧ ∀ i, i < v.cols → v.vat Ex.b1 i = v'.vat Ex.o i := by
  obtain ⟨v, h, hx⟩ := Ex.meets (Calls.diag Ex.bA) (n := 8) (by decide +kernel)
  obtain ⟨v', h', hx'⟩ := Ex.meets (Calls.diag Ex.sA) (n := 8) (by decide +kernel)
  exact ⟨v, v', h, h', C39_diag Ex.cfg ⟨_, Ex.bA_wf⟩ (by decide) trivial ⟨_, Ex.sA_wf⟩ (by decide) trivial h hx h' hx' Ex.b1_in Ex.o_in Ex.sameA⟩

example : ∃ v v', Returns Ex.cfg (fun B => traceM B Ex.bA) v ∧ Returns Ex.cfg (fun B => traceM B Ex.sA) v' ∧ v.get Ex.b1 = v'.get Ex.o := by
  obtain ⟨v, h, hx⟩ := Ex.meets (Calls.trace Ex.bA) (n := 8) (by decide +kernel)
  obtain ⟨v', h', hx'⟩ := Ex.meets (Calls.trace Ex.sA) (n := 8) (by decide +kernel)
  exact ⟨v, v', h, h', C39_trace Ex.cfg ⟨_, Ex.bA_wf⟩ (by decide) trivial ⟨_, Ex.sA_wf⟩ (by decide) trivial h hx h' hx' Ex.b1_in Ex.o_in Ex.sameA⟩

example : ∃ r r', kronM Ex.cfg.code Ex.bA Ex.bA = .ok r ∧ kronM Ex.cfg.code Ex.sA Ex.sA = .ok r' ∧ SameBatch Ex.b1 Ex.o (den r) (den r') := by
  have hb : BatchCompat Ex.bA Ex.bA := (Fits.refl _).compat (Fits.refl _)
  have hs : BatchCompat Ex.sA Ex.sA := (Fits.refl _).compat (Fits.refl _)
  obtain ⟨r, h⟩ := C18_kron_succeeds Ex.cfg (a := Ex.bA) (b := Ex.bA) ⟨_, Ex.bA_wf⟩ ⟨_, Ex.bA_wf⟩ hb (by decide) (by decide)
  obtain ⟨r', h'⟩ := C18_kron_succeeds Ex.cfg (a := Ex.sA) (b := Ex.sA) ⟨_, Ex.sA_wf⟩ ⟨_, Ex.sA_wf⟩ hs (by decide) (by decide)
  have e : (den r).bt = [2] := by
    obtain ⟨_, k⟩ := C18_kron Ex.cfg ⟨_, Ex.bA_wf⟩ ⟨_, Ex.bA_wf⟩ hb h
    rw [Tensor.bt, k.shape]; rfl
  have e' : (den r').bt = [] := by
    obtain ⟨_, k⟩ := C18_kron Ex.cfg ⟨_, Ex.sA_wf⟩ ⟨_, Ex.sA_wf⟩ hs h'
    rw [Tensor.bt, k.shape]; rfl
  exact ⟨r, r', h, h', C39_kron Ex.cfg ⟨_, Ex.bA_wf⟩ ⟨_, Ex.bA_wf⟩ hb ⟨_, Ex.sA_wf⟩ ⟨_, Ex.sA_wf⟩ hs h h' (e ▸ Ex.b1_in) (e' ▸ Ex.o_in) Ex.sameA Ex.sameA⟩

end Verif
