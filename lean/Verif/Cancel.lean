/-
C52: sums of low-rank matrices that cancel.  If the factors of two LowRank matrices agree and the middles are opposite, the sum is the
Zero matrix, so `(D + L) - L` is Diagonal again, and the pipeline of the README returns the matrix it started with.
-/
import Verif.Classes
import Verif.Props12
import Verif.Tol

set_option linter.unusedSectionVars false

namespace Verif

variable {K : Type} [Field K] [LinearOrder K] [IsStrictOrderedRing K]

/-! ### Alignment of equal columns -/

/-- If every column equals its partner, everything is merged. -/
theorem alignLoop_same {eq : ℕ → ℕ → E Bool} {na nb : ℕ → K} {l : List ℕ} (h : ∀ i ∈ l, eq i i = .ok true) :
    alignLoop eq na nb l l = .ok ⟨l.map Int.ofNat, l.map Int.ofNat, l.map Int.ofNat, l.map fun _ => -1⟩ := by
  induction l with
  | nil => rw [alignLoop]; rfl
  | cons i l ih =>
    rw [alignLoop, h i (by simp), ih fun j hj => h j (by simp [hj])]
    rfl

/-- Two matrices with the same entries in the first batch element. -/
def SameFirst (a b : Tensor K) : Prop :=
  a.rows = b.rows ∧ a.cols = b.cols ∧ ∀ x < a.rows, ∀ p < a.cols, a.at' (fun _ => 0) x p = b.at' (fun _ => 0) x p

omit [IsStrictOrderedRing K] in
theorem colNorms_same {a b : Tensor K} (h : SameFirst a b) : colNorms a = colNorms b := by
  obtain ⟨h1, h2, h3⟩ := h
  unfold colNorms
  rw [← h2]
  refine List.map_congr_left fun j hj => ?_
  rw [← h1]
  refine Finset.sum_congr rfl fun i hi => ?_
  rw [h3 i (Finset.mem_range.1 hi) j (List.mem_range.1 hj)]

/-- The entries agree in every batch element (after broadcasting to `S`). -/
def SameOver (S : Shp) (a b : Tensor K) : Prop :=
  a.rows = b.rows ∧ a.cols = b.cols ∧ ∀ β, InRange S β → ∀ x < a.rows, ∀ p < a.cols, a.at' β x p = b.at' β x p

omit [LinearOrder K] [IsStrictOrderedRing K] in
theorem dim_pos {S : Shp} (hS : 0 ∉ S) (k : ℕ) : 0 < dim S k := by
  unfold dim
  rw [List.getD_eq_getElem?_getD]
  cases h : S[k]? with
  | none => simp
  | some d =>
    have : d ∈ S := List.mem_of_getElem? h
    simp only [Option.getD_some]
    exact Nat.pos_of_ne_zero fun h0 => hS (h0 ▸ this)

omit [LinearOrder K] [IsStrictOrderedRing K] in
theorem InRange.up {S s : Shp} {β : Idx} (h : InRange s β) (hf : Fits S s) (hS : 0 ∉ S) : InRange S β := by
  intro k
  have := h k
  rcases hf k with h1 | h1
  · rw [h1] at this; exact lt_of_lt_of_le this (dim_pos hS k)
  · rwa [h1] at this

omit [LinearOrder K] [IsStrictOrderedRing K] in
theorem SameOver.first {S : Shp} (hS : 0 ∉ S) {a b : Tensor K} (h : SameOver S a b) : SameFirst a b :=
  ⟨h.1, h.2.1, fun x hx p hp => h.2.2 _ (fun k => dim_pos hS k) x hx p hp⟩

theorem codeColEq_same {tol : K} (ht : 0 < tol) {a b : Tensor K} (h : SameFirst a b) (hr : a.rows ≠ 0) {i : ℕ} (hi : i < a.cols) : codeColEq tol a b i i = .ok true := by
  unfold codeColEq
  rw [← h.1, if_pos (Compat.refl _)]
  have e0 : bd a.rows a.rows = a.rows := by simp [bd]
  simp only [e0, Except.ok.injEq, decide_eq_true_eq]
  refine ⟨hr, ?_⟩
  rw [Finset.sum_eq_zero, zero_div]
  · exact ht
  · intro x hx
    rw [h.2.2 x (Finset.mem_range.1 hx) i hi, sub_self, mul_zero]

omit [IsStrictOrderedRing K] in
theorem argsort_range (a : Tensor K) : (codeArgsort (colNorms a)).Perm (List.range a.cols) := by
  have pa : (codeArgsort (colNorms a)).Perm (List.range (colNorms a).length) := List.perm_insertionSort _ _
  simpa only [colNorms, List.length_map, List.length_range] using pa

theorem align_same {c : Cfg K} (ht : 0 < c.tol) {a b : Tensor K} (h : SameFirst a b) (hr : a.rows ≠ 0) {r : Align} (hL : align c.code a b = .ok r) :
    ∃ l : List ℕ, l.Perm (List.range a.cols) ∧ r = ⟨l.map Int.ofNat, l.map Int.ofNat, l.map Int.ofNat, l.map fun _ => -1⟩ := by
  simp only [align, bind_ok_iff] at hL
  obtain ⟨_, _, _, _, hL⟩ := hL
  rw [← colNorms_same h] at hL
  refine ⟨_, argsort_range a, ?_⟩
  have e : ∀ i ∈ codeArgsort (colNorms a), c.code.colEq a b i i = .ok true :=
    fun i hi => codeColEq_same ht h hr (List.mem_range.1 ((argsort_range a).mem_iff.1 hi))
  have := hL.symm.trans (alignLoop_same e)
  exact Except.ok.inj this

/-- The strict tests agree with the code's on columns that are equal in every batch element. -/
theorem align_same_strict {c : Cfg K} (ht : 0 < c.tol) {S : Shp} (hS : 0 ∉ S) {a b : Tensor K} (h : SameOver S a b) (ga : Fits S a.bt) (gb : Fits S b.bt) (hr : a.rows ≠ 0) :
    align c.strict a b = align c.code a b := by
  unfold align
  rw [← colNorms_same (h.first hS)]
  have e : ∀ i ∈ codeArgsort (colNorms a), c.code.colEq a b i i = .ok true :=
    fun i hi => codeColEq_same ht (h.first hS) hr (List.mem_range.1 ((argsort_range a).mem_iff.1 hi))
  have e' : ∀ i ∈ codeArgsort (colNorms a), c.strict.colEq a b i i = .ok true := by
    intro i hi
    have hc : codeColEq c.tol a b i i = .ok true := e i hi
    have hi := List.mem_range.1 ((argsort_range a).mem_iff.1 hi)
    have ha : colsAgree a b i i = true := by
      simp only [colsAgree, decide_eq_true_eq]
      refine ⟨h.1, fun n hn x hx => ?_⟩
      exact h.2.2 _ ((inRange_unlin hn).up (ga.bsh gb) hS) x hx i hi
    show (codeColEq c.tol a b i i >>= fun b' => if b' && !colsAgree a b i i then .error .inexact else .ok b') = _
    rw [hc, ha]; rfl
  have := alignLoop_same (na := fun i => (colNorms a).getD i 0) (nb := fun i => (colNorms a).getD i 0) e
  have := alignLoop_same (na := fun i => (colNorms a).getD i 0) (nb := fun i => (colNorms a).getD i 0) e'
  show (guardE (0 ∉ a.bt) .index >>= fun _ => guardE (0 ∉ b.bt) .index >>= fun _ => alignLoop (c.strict.colEq a b) _ _ (codeArgsort (colNorms a)) (codeArgsort (colNorms a))) = 
    (guardE (0 ∉ a.bt) .index >>= fun _ => guardE (0 ∉ b.bt) .index >>= fun _ => alignLoop (c.code.colEq a b) _ _ (codeArgsort (colNorms a)) (codeArgsort (colNorms a)))
  rw [alignLoop_same e, alignLoop_same e']

/-! ### The sum does not look at the classes of the factors -/

section
variable {env : Env K} {B C : Ops K} (hT : B.Twin env C)
include hT

omit [IsStrictOrderedRing K] in
theorem sim_takeGen {a : Mat K} (h : a.wo true) (idx : List Int) (k : Int) : Sim (fun r => (∃ t, r = .num t) ∨ ∃ t, r = .dense t) (takeGen B a idx k) (takeGen C a idx k) := by
  unfold takeGen
  refine (hT.dense h).go fun d => Sim.skip fun t => Sim.pure ?_
  unfold wrapLike
  split_ifs
  · exact Or.inr ⟨_, rfl⟩
  · exact Or.inl ⟨_, rfl⟩

omit [IsStrictOrderedRing K] in
theorem sim_padZeroCol {a : Mat K} (h : a.wo true) : Sim (fun r => (∃ t, r = .num t) ∨ ∃ t, r = .dense t) (padZeroCol B a) (padZeroCol C a) := by
  unfold padZeroCol
  refine Sim.skip fun s => (hT.dense h).go fun d => Sim.skip fun t => Sim.pure ?_
  unfold wrapLike
  split_ifs
  · exact Or.inr ⟨_, rfl⟩
  · exact Or.inl ⟨_, rfl⟩

omit [IsStrictOrderedRing K] in
theorem sim_padZeroRow {a : Mat K} (h : a.wo true) : Sim (fun r => (∃ t, r = .num t) ∨ ∃ t, r = .dense t) (padZeroRow B a) (padZeroRow C a) := by
  unfold padZeroRow
  refine Sim.skip fun s => (hT.dense h).go fun d => Sim.skip fun t => Sim.pure ?_
  unfold wrapLike
  split_ifs
  · exact Or.inr ⟨_, rfl⟩
  · exact Or.inl ⟨_, rfl⟩

omit [IsStrictOrderedRing K] in
theorem sim_addFlat {a b : Mat K} (ha : (∃ t, a = .num t) ∨ ∃ t, a = .dense t) (hb : (∃ t, b = .num t) ∨ ∃ t, b = .dense t) : Sim (Mat.wo true) (B.add a b) (C.add a b) := by
  have hk : ∀ x : Mat K, ((∃ t, x = .num t) ∨ ∃ t, x = .dense t) → x.wo true ∧ (kindC env x).low = false ∧ (kindC env x = .const ∨ kindC env x = .zero ∨ kindC env x = .dense) := by
    rintro x (⟨t, rfl⟩ | ⟨t, rfl⟩)
    · refine ⟨trivial, ?_⟩
      simp only [kindC, convertAM]
      split_ifs <;> simp [Mat.kind, mkDense, Kind.low]
    · exact ⟨trivial, rfl, Or.inr (Or.inr rfl)⟩
  obtain ⟨w, l, _⟩ := hk a ha
  obtain ⟨w', l', _⟩ := hk b hb
  exact hT.add w w' (by simp [lowSum, l, l'])

omit [IsStrictOrderedRing K] in
theorem flat_wo {a : Mat K} (h : (∃ t, a = .num t) ∨ ∃ t, a = .dense t) : a.wo true := by
  rcases h with (⟨t, rfl⟩ | ⟨t, rfl⟩) <;> trivial

omit [IsStrictOrderedRing K] in
/-- The sum of two LowRank matrices makes no other tolerance test than its own. -/
theorem addLRLR_twin (env' : Env K) {al ar am bl br bm : Mat K} (h1 : al.wo false) (h2 : ar.wo false) (h3 : am.wo false) (h4 : bl.wo false) (h5 : br.wo false) (h6 : bm.wo false) :
    Sim (fun _ => True) (addLRLR env' B al ar am bl br bm) (addLRLR env' C al ar am bl br bm) := by
  unfold addLRLR
  refine Sim.skip fun _ => Sim.skip fun _ => Sim.skip fun _ => ?_
  refine (hT.dense h1.up).go fun _ => (hT.dense h4.up).go fun _ => Sim.skip fun L => ?_
  refine (hT.dense h2.up).go fun _ => (hT.dense h5.up).go fun _ => Sim.skip fun R => ?_
  refine (sim_padZeroCol hT h1.up).bind fun p hp => (sim_takeGen hT (flat_wo hT hp) _ _).bind fun aLeft haL => ?_
  refine (sim_padZeroCol hT h4.up).bind fun p hp => (sim_takeGen hT (flat_wo hT hp) _ _).bind fun bLeft hbL => ?_
  refine (sim_addFlat hT haL hbL).bind fun jL hjL => ?_
  refine (sim_padZeroCol hT h2.up).bind fun p hp => (sim_takeGen hT (flat_wo hT hp) _ _).bind fun aR haR => ?_
  refine (sim_padZeroCol hT h5.up).bind fun p hp => (sim_takeGen hT (flat_wo hT hp) _ _).bind fun bR hbR => ?_
  refine (sim_addFlat hT haR hbR).bind fun jR hjR => ?_
  refine (sim_padZeroRow hT h3.up).bind fun p hp => (sim_padZeroCol hT (flat_wo hT hp)).bind fun p hp => (sim_takeGen hT (flat_wo hT hp) _ _).bind fun p hp => (sim_takeGen hT (flat_wo hT hp) _ _).bind fun aM haM => ?_
  refine (sim_padZeroRow hT h6.up).bind fun p hp => (sim_padZeroCol hT (flat_wo hT hp)).bind fun p hp => (sim_takeGen hT (flat_wo hT hp) _ _).bind fun p hp => (sim_takeGen hT (flat_wo hT hp) _ _).bind fun bM hbM => ?_
  refine (sim_addFlat hT haM hbM).bind fun jM hjM => Sim.skip fun lr => (hT.dense hjM).go fun d => Sim.skip fun z => Sim.refl _

end

/-! ### The sum of opposite LowRank matrices -/

omit [LinearOrder K] [IsStrictOrderedRing K] in
/-- Every entry, from the entries at rows and columns. -/
theorem Rep.get_all {S : Shp} {r c : ℕ} {t : Tensor K} {f : Idx → ℕ → ℕ → K} (h : Rep S r c t f) (hS : 0 ∉ S) {P : K → Prop}
    (hP : ∀ β i j, InRange S β → i < r → j < c → P (f β i j)) {n : ℕ} (hn : n < size t.sh) : P (t.get (unlin t.sh n)) := by
  have hi := inRange_unlin hn
  generalize unlin t.sh n = i at hi
  have e : i = icons (i 0) (icons (i 1) fun k => i (k + 2)) := by
    funext k
    match k with
    | 0 => rfl
    | 1 => rfl
    | k+2 => rfl
  rw [Tensor.sh_eq h.rank, e] at hi
  simp only [inRange_cons] at hi
  rw [e]
  have := h.at' (fun k => i (k + 2)) (i 1) (i 0) (hi.2.2.up h.bt hS) (h.rows ▸ hi.2.1) (h.cols ▸ hi.1)
  unfold Tensor.at' at this
  rw [this]
  exact hP _ _ _ (hi.2.2.up h.bt hS) (h.rows ▸ hi.2.1) (h.cols ▸ hi.1)

omit [LinearOrder K] [IsStrictOrderedRing K] in
theorem map_ofNat (l : List ℕ) : l.map Int.ofNat = (l.map some).map enc := by
  rw [List.map_map]; rfl

omit [LinearOrder K] [IsStrictOrderedRing K] in
theorem map_neg (l : List ℕ) : (l.map fun _ => (-1 : Int)) = (l.map fun _ => (none : Option ℕ)).map enc := by
  rw [List.map_map]; rfl

/-- The joint middle factor of opposite LowRank matrices is zero. -/
theorem mid_cancel {B : Ops K} (hB : B.Ok) {S : Shp} {am bm jM pam pam' tam aMid pbm pbm' tbm bMid : Mat K} {djm : Tensor K} (wam : am.WF S) (kam : 2 ≤ (den am).rank)
    (wbm : bm.WF S) (kbm : 2 ≤ (den bm).rank) (er : (den bm).rows = (den am).rows) (ec : (den bm).cols = (den am).cols)
    (h3 : ∀ β, InRange S β → ∀ p < (den am).rows, ∀ q < (den am).cols, (den am).at' β p q + (den bm).at' β p q = 0) {σ τ : List ℕ}
    (lσ : ∀ p, some p ∈ σ.map some → p < (den am).rows) (lτ : ∀ p, some p ∈ τ.map some → p < (den am).cols)
    (hpam : padZeroRow B am = .ok pam) (hpam' : padZeroCol B pam = .ok pam') (htam : takeGen B pam' (σ.map Int.ofNat) (-2) = .ok tam) (haM : takeGen B tam (τ.map Int.ofNat) (-1) = .ok aMid)
    (hpbm : padZeroRow B bm = .ok pbm) (hpbm' : padZeroCol B pbm = .ok pbm') (htbm : takeGen B pbm' (σ.map Int.ofNat) (-2) = .ok tbm) (hbM : takeGen B tbm (τ.map Int.ofNat) (-1) = .ok bMid)
    (hjM : B.add aMid bMid = .ok jM) (edjm : B.dense jM = .ok djm) :
    jM.WF S ∧ djm = den jM ∧ (den jM).bt = bsh (den am).bt (den bm).bt ∧ Rep S σ.length τ.length (den jM) fun _ _ _ => 0 := by
  have gam := wam.good kam
  have gbm := wbm.good kbm
  simp only [map_ofNat] at htam haM htbm hbM
  obtain ⟨waM, daM, _⟩ := padTakeMid_ok hB wam kam lσ lτ hpam hpam' htam haM
  obtain ⟨wbM, dbM, _⟩ := padTakeMid_ok hB wbm kbm (er ▸ lσ) (ec ▸ lτ) hpbm hpbm' htbm hbM
  have RaM := (Rep.self' (S := S) kam rfl rfl gam.fits).ptMid lσ lτ
  have RbM := (Rep.self' (S := S) kbm er ec gbm.fits).ptMid lσ lτ
  have zM := hB.add waM wbM (noStretch_of_eq (by rw [daM, dbM, RaM.rows, RbM.rows]) (by rw [daM, dbM, RaM.cols, RbM.cols])) hjM
  have dM := zM.eq
  rw [daM, dbM] at dM
  have RM := dM ▸ RaM.zipB (· + ·) RbM
  simp only [List.length_map] at RM
  refine ⟨zM.wf, hB.dense zM.wf edjm, by rw [dM, zipB_bt, ptMid_bt, ptMid_bt], RM.congr fun β i j hβ hi hj => ?_⟩
  have ei : (σ.map some).getD i none = some (σ.getD i 0) := by simp [List.getD_eq_getElem?_getD, List.getElem?_eq_getElem hi]
  have ej : (τ.map some).getD j none = some (τ.getD j 0) := by simp [List.getD_eq_getElem?_getD, List.getElem?_eq_getElem hj]
  simp only [ei, ej, optF_some]
  exact h3 β hβ _ (lσ _ (mem_of_getD ei)) _ (lτ _ (mem_of_getD ej))

theorem addLRLR_cancel {c : Cfg K} (ht : 0 < c.tol) {B : Ops K} (hB : B.Ok) {S : Shp} (hS : 0 ∉ S) {al ar am bl br bm r : Mat K}
    (wa : (Mat.lr al ar am).WF S) (wb : (Mat.lr bl br bm).WF S) (h1 : SameFirst (den al) (den bl)) (h2 : SameFirst (den ar) (den br))
    (hl : (den al).rows ≠ 0) (hr : (den ar).rows ≠ 0) (hl' : (den al).cols ≠ 0) (hr' : (den ar).cols ≠ 0)
    (h3 : ∀ β, InRange S β → ∀ p < (den am).rows, ∀ q < (den am).cols, (den am).at' β p q + (den bm).at' β p q = 0)
    (h : addLRLR c.code B al ar am bl br bm = .ok r) : 
    r = .zero (bsh (den (.lr al ar am)).bt (den (.lr bl br bm)).bt) (den al).rows (den ar).rows := by
  have hsa := wa.shape
  have hsb := wb.shape
  obtain ⟨⟨wal, war, wam⟩, ⟨kal, kar, kam⟩, ca1, ca2⟩ := wa
  obtain ⟨⟨wbl, wbr, wbm⟩, ⟨kbl, kbr, kbm⟩, cb1, cb2⟩ := wb
  have gal := wal.good kal; have gar := war.good kar; have gam := wam.good kam
  have gbl := wbl.good kbl; have gbr := wbr.good kbr; have gbm := wbm.good kbm
  simp only [addLRLR, hsa, hsb, bind_ok_iff, Except.ok.injEq, assertCompatible_ok, exists_eq_left'] at h
  obtain ⟨_, hcomp, dal, e1, dbl, e2, L, hL, dar, e3, dbr, e4, R, hR, pal, hpal, aLeft, haL, pbl, hpbl, bLeft, hbL, jL, hjL,
    par, hpar, aRight, haR, pbr, hpbr, bRight, hbR, jR, hjR, pam, hpam, pam', hpam', tam, htam, aMid, haM,
    pbm, hpbm, pbm', hpbm', tbm, htbm, bMid, hbM, jM, hjM, lr, hlr, djm, edjm, isz, hisz, h⟩ := h
  obtain rfl := hB.dense wal e1
  obtain rfl := hB.dense wbl e2
  obtain rfl := hB.dense war e3
  obtain rfl := hB.dense wbr e4
  obtain ⟨σ, pσ, rfl⟩ := align_same ht h1 hl hL
  obtain ⟨τ, pτ, rfl⟩ := align_same ht h2 hr hR
  have lσ : ∀ p, some p ∈ σ.map some → p < (den am).rows := by
    intro p hp
    simp only [List.mem_map, Option.some.injEq, exists_eq_right] at hp
    rw [← ca1]; exact List.mem_range.1 (pσ.mem_iff.1 hp)
  have lτ : ∀ p, some p ∈ τ.map some → p < (den am).cols := by
    intro p hp
    simp only [List.mem_map, Option.some.injEq, exists_eq_right] at hp
    rw [← ca2]; exact List.mem_range.1 (pτ.mem_iff.1 hp)
  have er : (den bm).rows = (den am).rows := by rw [← cb1, ← ca1, h1.2.1]
  have ec : (den bm).cols = (den am).cols := by rw [← cb2, ← ca2, h2.2.1]
  have lσ' : ∀ p, some p ∈ σ.map some → p < (den al).cols := fun p hp => by rw [ca1]; exact lσ p hp
  have lτ' : ∀ p, some p ∈ τ.map some → p < (den ar).cols := fun p hp => by rw [ca2]; exact lτ p hp
  have l0 : ∀ (l : List ℕ) (m : ℕ) (p : ℕ), some p ∈ l.map (fun _ => (none : Option ℕ)) → p < m := fun l m p hp => by simp at hp
  obtain ⟨wM, rfl, bM, RM⟩ := mid_cancel hB wam kam wbm kbm er ec h3 lσ lτ hpam hpam' htam haM hpbm hpbm' htbm hbM hjM edjm
  simp only [map_ofNat, map_neg] at haL hbL haR hbR
  obtain ⟨waL, daL, _⟩ := padTakeCol_ok hB wal kal lσ' hpal haL
  obtain ⟨wbL, dbL, _⟩ := padTakeCol_ok hB wbl kbl (l0 σ _) hpbl hbL
  obtain ⟨waR, daR, _⟩ := padTakeCol_ok hB war kar lτ' hpar haR
  obtain ⟨wbR, dbR, _⟩ := padTakeCol_ok hB wbr kbr (l0 τ _) hpbr hbR
  have RaL := (Rep.self (S := S) kal gal.fits).ptCol lσ'
  have RbL := (Rep.self' (S := S) kbl h1.1.symm rfl gbl.fits).ptCol (l0 σ _)
  have RaR := (Rep.self (S := S) kar gar.fits).ptCol lτ'
  have RbR := (Rep.self' (S := S) kbr h2.1.symm rfl gbr.fits).ptCol (l0 τ _)
  have zL := hB.add waL wbL (noStretch_of_eq (by rw [daL, dbL, RaL.rows, RbL.rows]) (by rw [daL, dbL, RaL.cols, RbL.cols]; simp)) hjL
  have zR := hB.add waR wbR (noStretch_of_eq (by rw [daR, dbR, RaR.rows, RbR.rows]) (by rw [daR, dbR, RaR.cols, RbR.cols]; simp)) hjR
  have nσ : σ.length ≠ 0 := by rw [pσ.length_eq, List.length_range]; exact hl'
  have nτ : τ.length ≠ 0 := by rw [pτ.length_eq, List.length_range]; exact hr'
  have hz : isz = true := by
    have hz : codeIsZero c.tol (den jM) = .ok isz := hisz
    simp only [codeIsZero, Except.ok.injEq] at hz
    rw [← hz, decide_eq_true_eq]
    have hsz : size (den jM).sh ≠ 0 := by
      rw [Tensor.sh_eq RM.rank, RM.rows, RM.cols]
      simp only [size, List.prod_cons]
      refine Nat.mul_ne_zero nτ (Nat.mul_ne_zero nσ ?_)
      have := RM.bt.pos hS
      exact List.prod_ne_zero this
    refine ⟨hsz, ?_⟩
    rw [Finset.sum_eq_zero, zero_div]
    · exact ht
    · intro n hn
      refine RM.get_all hS (P := fun x => |x| = 0) (fun β i j hβ hi hj => ?_) (Finset.mem_range.1 hn)
      exact abs_zero
  subst hz
  obtain ⟨rfl, wlr⟩ := mkLR_inv zL.wf zR.wf wM hlr
  have dL := zL.eq; have dR := zR.eq
  rw [daL, dbL] at dL
  rw [daR, dbR] at dR
  simp only [if_true, bind_ok_iff, wlr.shape, Except.ok.injEq, exists_eq_left'] at h
  have k2 : 2 ≤ (den (.lr jL jR jM)).rank := by simp [den, Tensor.rank]
  rw [Tensor.sh_eq k2, mkZero_ok] at h
  obtain ⟨c', r', bt', hq, rfl⟩ := h
  simp only [List.cons.injEq] at hq
  obtain ⟨rfl, rfl, rfl⟩ := hq
  simp only [List.length_map] at RaL RbL RaR RbR
  have lhs := ((dL ▸ RaL.zipB (· + ·) RbL).mm RM).mm (dR ▸ RaR.zipB (· + ·) RbR).tr
  have e : (den (.lr jL jR jM)).bt = bsh (bsh (bsh (den al).bt (den bl).bt) (bsh (den am).bt (den bm).bt)) (bsh (den ar).bt (den br).bt) := by
    simp only [den, mm_bt, tr_bt, dL, dR, bM, zipB_bt, ptCol_bt]
  have q1 := gal.fits; have q2 := gar.fits; have q3 := gam.fits
  have q4 := gbl.fits; have q5 := gbr.fits; have q6 := gbm.fits
  congr 1
  · rw [e]
    simp only [den, mm_bt, tr_bt]
    bsh_ac
  · exact lhs.rows
  · exact lhs.cols

omit [Field K] [LinearOrder K] [IsStrictOrderedRing K] in
theorem bind_congr_ok {α β : Type} {x : E α} {f g : α → E β} (h : ∀ v, x = .ok v → f v = g v) : (x >>= f) = (x >>= g) := by
  cases x with
  | error e => rfl
  | ok v => exact h v rfl

/-- The strict tests find nothing to complain about in a sum of opposite LowRank matrices. -/
theorem addLRLR_cancel_exact {c : Cfg K} (ht : 0 < c.tol) {B : Ops K} (hB : B.Ok) {S : Shp} (hS : 0 ∉ S) {al ar am bl br bm : Mat K}
    (wa : (Mat.lr al ar am).WF S) (wb : (Mat.lr bl br bm).WF S) (h1 : SameOver S (den al) (den bl)) (h2 : SameOver S (den ar) (den br))
    (hl : (den al).rows ≠ 0) (hr : (den ar).rows ≠ 0)
    (h3 : ∀ β, InRange S β → ∀ p < (den am).rows, ∀ q < (den am).cols, (den am).at' β p q + (den bm).at' β p q = 0) :
    addLRLR c.strict B al ar am bl br bm = addLRLR c.code B al ar am bl br bm := by
  obtain ⟨⟨wal, war, wam⟩, ⟨kal, kar, kam⟩, ca1, ca2⟩ := wa
  obtain ⟨⟨wbl, wbr, wbm⟩, ⟨kbl, kbr, kbm⟩, cb1, cb2⟩ := wb
  have gal := wal.good kal; have gar := war.good kar; have gam := wam.good kam
  have gbl := wbl.good kbl; have gbr := wbr.good kbr; have gbm := wbm.good kbm
  have er : (den bm).rows = (den am).rows := by rw [← cb1, ← ca1, h1.2.1]
  have ec : (den bm).cols = (den am).cols := by rw [← cb2, ← ca2, h2.2.1]
  unfold addLRLR
  refine bind_congr_ok fun sa _ => bind_congr_ok fun sb _ => bind_congr_ok fun _ _ => bind_congr_ok fun dal e1 => bind_congr_ok fun dbl e2 => ?_
  obtain rfl := hB.dense wal e1
  obtain rfl := hB.dense wbl e2
  rw [align_same_strict ht hS h1 gal.fits gbl.fits hl]
  refine bind_congr_ok fun L hL => bind_congr_ok fun dar e3 => bind_congr_ok fun dbr e4 => ?_
  obtain rfl := hB.dense war e3
  obtain rfl := hB.dense wbr e4
  rw [align_same_strict ht hS h2 gar.fits gbr.fits hr]
  refine bind_congr_ok fun R hR => ?_
  obtain ⟨σ, pσ, rfl⟩ := align_same ht (h1.first hS) hl hL
  obtain ⟨τ, pτ, rfl⟩ := align_same ht (h2.first hS) hr hR
  have lσ : ∀ p, some p ∈ σ.map some → p < (den am).rows := by
    intro p hp
    simp only [List.mem_map, Option.some.injEq, exists_eq_right] at hp
    rw [← ca1]; exact List.mem_range.1 (pσ.mem_iff.1 hp)
  have lτ : ∀ p, some p ∈ τ.map some → p < (den am).cols := by
    intro p hp
    simp only [List.mem_map, Option.some.injEq, exists_eq_right] at hp
    rw [← ca2]; exact List.mem_range.1 (pτ.mem_iff.1 hp)
  refine bind_congr_ok fun _ _ => bind_congr_ok fun _ _ => bind_congr_ok fun _ _ => bind_congr_ok fun _ _ => bind_congr_ok fun _ _ => ?_
  refine bind_congr_ok fun _ _ => bind_congr_ok fun _ _ => bind_congr_ok fun _ _ => bind_congr_ok fun _ _ => bind_congr_ok fun _ _ => ?_
  refine bind_congr_ok fun pam hpam => bind_congr_ok fun pam' hpam' => bind_congr_ok fun tam htam => bind_congr_ok fun aMid haM => ?_
  refine bind_congr_ok fun pbm hpbm => bind_congr_ok fun pbm' hpbm' => bind_congr_ok fun tbm htbm => bind_congr_ok fun bMid hbM => ?_
  refine bind_congr_ok fun jM hjM => bind_congr_ok fun lr hlr => bind_congr_ok fun djm edjm => ?_
  obtain ⟨wM, rfl, bM, RM⟩ := mid_cancel hB wam kam wbm kbm er ec h3 lσ lτ hpam hpam' htam haM hpbm hpbm' htbm hbM hjM edjm
  have z : allZero (den jM) = true := by
    simp only [allZero, decide_eq_true_eq]
    exact fun n hn => RM.get_all hS (P := fun x => x = 0) (fun _ _ _ _ _ _ => rfl) hn
  have : c.strict.isZero (den jM) = c.code.isZero (den jM) := by
    show (codeIsZero c.tol (den jM) >>= fun b => if b && !allZero (den jM) then .error .inexact else .ok b) = codeIsZero c.tol (den jM)
    rw [z]
    simp [codeIsZero, bind, Except.bind]
  rw [this]

/-! ### C52 -/

/-- Opposite LowRank matrices: the outer factors agree and the middles add up to zero, in every batch element. -/
structure Opposite (al ar am bl br bm : Mat K) : Prop where
  left : SameOver (bsh (den (.lr al ar am)).bt (den (.lr bl br bm)).bt) (den al) (den bl)
  right : SameOver (bsh (den (.lr al ar am)).bt (den (.lr bl br bm)).bt) (den ar) (den br)
  middle : ∀ β, InRange (bsh (den (.lr al ar am)).bt (den (.lr bl br bm)).bt) β → ∀ p < (den am).rows, ∀ q < (den am).cols, (den am).at' β p q + (den bm).at' β p q = 0

/-- C52.  Adding opposite LowRank matrices passes the tolerance tests exactly. -/
theorem C52_lowrank_exact (c : Cfg K) (ht : 0 < c.tol) {al ar am bl br bm : Mat K} (ha : (Mat.lr al ar am).Supported) (hb : (Mat.lr bl br bm).Supported)
    (hc : BatchCompat (.lr al ar am) (.lr bl br bm)) (hwa : (Mat.lr al ar am).wo true) (hwb : (Mat.lr bl br bm).wo true)
    (ho : Opposite al ar am bl br bm) (hl : (den al).rows ≠ 0) (hr : (den ar).rows ≠ 0) :
    Exact c fun B => B.add (.lr al ar am) (.lr bl br bm) := by
  obtain ⟨wa, wb⟩ := ha.valid.common hb.valid hc
  intro n
  cases n with
  | zero => rfl
  | succ n =>
    show addLRLR c.strict (ops c.strict n) al ar am bl br bm = addLRLR c.code (ops c.code n) al ar am bl br bm
    rw [addLRLR_cancel_exact ht (c.ok n) (zero_bsh ha.batch hb.batch) wa wb ho.left ho.right hl hr ho.middle]
    exact (addLRLR_twin (ops_twin (env := c.strict) (env' := c.code) rfl n) c.code hwa.1 hwa.2.1 hwa.2.2 hwb.1 hwb.2.1 hwb.2.2).1

omit [Field K] [LinearOrder K] [IsStrictOrderedRing K] in
theorem Compat.cons_self (d : ℕ) {s t : Shp} (h : Compat s t) : Compat (d :: s) (d :: t) := fun k =>
  match k with
  | 0 => Or.inr (Or.inr rfl)
  | k+1 => h k

/-- C52.  The sum of opposite LowRank matrices is the Zero matrix. -/
theorem C52_lowrank_cancel (c : Cfg K) (ht : 0 < c.tol) {al ar am bl br bm : Mat K} (ha : (Mat.lr al ar am).Supported) (hb : (Mat.lr bl br bm).Supported)
    (hc : BatchCompat (.lr al ar am) (.lr bl br bm)) (hwa : (Mat.lr al ar am).wo true) (hwb : (Mat.lr bl br bm).wo true)
    (ho : Opposite al ar am bl br bm) (hl : (den al).rows ≠ 0) (hr : (den ar).rows ≠ 0) (hl' : (den al).cols ≠ 0) (hr' : (den ar).cols ≠ 0) :
    Returns c (fun B => B.add (.lr al ar am) (.lr bl br bm)) (.zero (bsh (den (.lr al ar am)).bt (den (.lr bl br bm)).bt) (den al).rows (den ar).rows) := by
  have hx := C52_lowrank_exact c ht ha hb hc hwa hwb ho hl hr
  have e1 : (den (.lr al ar am)).rows = (den (.lr bl br bm)).rows := ho.left.1
  have e2 : (den (.lr al ar am)).cols = (den (.lr bl br bm)).cols := ho.right.1
  have k1 : 2 ≤ (den (.lr al ar am)).rank := by simp [den, Tensor.rank]
  have k2 : 2 ≤ (den (.lr bl br bm)).rank := by simp [den, Tensor.rank]
  have hcs : Compat (den (.lr al ar am)).sh (den (.lr bl br bm)).sh := by
    rw [Tensor.sh_eq k1, Tensor.sh_eq k2, e1, e2]
    exact Compat.cons_self _ (Compat.cons_self _ hc)
  obtain ⟨r, ⟨n, h⟩, _⟩ := C45_add c ha hb hcs (noStretch_of_eq e1 e2) hx
  obtain ⟨wa, wb⟩ := ha.valid.common hb.valid hc
  have h' := (hx n).trans h
  cases n with
  | zero => cases h
  | succ n =>
    have h'' : addLRLR c.strict (ops c.strict n) al ar am bl br bm = .ok r := h'
    rw [addLRLR_cancel_exact ht (c.ok n) (zero_bsh ha.batch hb.batch) wa wb ho.left ho.right hl hr ho.middle] at h''
    have := addLRLR_cancel ht (c.ok n) (zero_bsh ha.batch hb.batch) wa wb (ho.left.first (zero_bsh ha.batch hb.batch)) (ho.right.first (zero_bsh ha.batch hb.batch)) hl hr hl' hr' ho.middle h''
    exact ⟨n + 1, by rw [← this]; exact h⟩

end Verif
