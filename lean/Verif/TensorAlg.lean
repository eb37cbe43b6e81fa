/-
Algebra of batched matrices: associativity, distributivity, transposes, diagonal and constant factors, Kronecker products.
All statements are equalities of tensors (shape and entries).
-/
import Verif.Num
import Lean.Elab.Tactic

namespace Verif
open Lean Elab Tactic Meta in
/-- Add `h k` for every local hypothesis `h : Fits ..` or `h : Compat ..`. -/
elab "inst_fits" k:term : tactic => withMainContext do
  let lctx ← getLCtx
  let mut g ← getMainGoal
  let ke ← elabTerm k none
  for d in lctx do
    if d.isImplementationDetail then continue
    let ty ← instantiateMVars d.type
    if ty.isAppOf ``Verif.Fits || ty.isAppOf ``Verif.Compat then
      let e := mkApp d.toExpr ke
      let t ← whnfR (← inferType d.toExpr)
      let t ← delta? t
      let some t := t | continue
      let t := t.bindingBody!.instantiate1 ke
      let g' ← g.assert `hk t.headBeta e
      let (_, g'') ← g'.intro1
      g := g''
  replaceMainGoal [g]

/-- Prove `Fits` goals between broadcasts of shapes from `Fits` hypotheses. -/
macro "fits" : tactic => `(tactic| (intro k; inst_fits k
                                    (repeat' casesm* _ ∨ _) <;>
                                      simp only [dim_bsh, bd_one_left, bd_one_right, bd_self, *] <;> simp))

theorem Fits.inL {S a b x : Shp} (ha : Fits S a) (hb : Fits S b) (h : Fits a x) : Fits (Verif.bsh a b) x :=
  (ha.compat hb).fits_left.trans h
theorem Fits.inR {S a b x : Shp} (ha : Fits S a) (hb : Fits S b) (h : Fits b x) : Fits (Verif.bsh a b) x :=
  (ha.compat hb).fits_right.trans h

/-- Prove `Fits S (broadcast of shapes)` from `Fits S` of the parts. -/
syntax "fitsUp" : tactic
macro_rules | `(tactic| fitsUp) => `(tactic| first | assumption | exact Fits.nil _ | (refine Fits.bsh ?_ ?_ <;> fitsUp))

/-- Prove `Fits (broadcast of shapes) part`, where all parts fit the shape given. -/
syntax "fitsIn" term:max : tactic
macro_rules | `(tactic| fitsIn $S) => `(tactic| first
  | exact Fits.refl _
  | (refine Fits.inL (S := $S) (by fitsUp) (by fitsUp) ?_; fitsIn $S)
  | (refine Fits.inR (S := $S) (by fitsUp) (by fitsUp) ?_; fitsIn $S))

/-- Shapes equal up to associativity, commutativity and idempotence of broadcasting. -/
macro "bsh_ac" : tactic => `(tactic| first | rfl | ac_rfl)

variable {K : Type}

theorem Fits.mat {K : Type} [Zero K] {t : Tensor K} {S r c} (h : 2 ≤ t.rank) (hr : t.rows = r) (hc : t.cols = c)
    (hS : Fits S t.bt) : Fits (c :: r :: S) t.sh := by
  rw [Tensor.sh_eq h, hr, hc]; simp [hS]

/-- `t` is a batch of `r × c` matrices whose entries over the batch universe `S` are `f`. -/
structure Rep [Zero K] (S : Shp) (r c : ℕ) (t : Tensor K) (f : Idx → ℕ → ℕ → K) : Prop where
  rank : 2 ≤ t.rank
  rows : t.rows = r
  cols : t.cols = c
  bt : Fits S t.bt
  at' : ∀ β i j, InRange S β → i < r → j < c → t.at' β i j = f β i j

/-- `t` broadcasts to batches (over `S`) of `r × c` matrices with entries `f`. -/
structure FRep [Zero K] (S : Shp) (r c : ℕ) (t : Tensor K) (f : Idx → ℕ → ℕ → K) : Prop where
  fits : Fits (c :: r :: S) t.sh
  at' : ∀ β i j, InRange S β → i < r → j < c → t.at' β i j = f β i j

/-- `t` is a batch of vectors of length `n` with entries `f`. -/
structure VRep [Zero K] (S : Shp) (n : ℕ) (t : Tensor K) (f : Idx → ℕ → K) : Prop where
  rank : 1 ≤ t.rank
  len : t.cols = n
  bt : Fits S t.sh.tail
  vat : ∀ β i, InRange S β → i < n → t.vat β i = f β i


/-- A batch of matrices over the universe `S`. -/
structure Good [Zero K] (S : Shp) (t : Tensor K) : Prop where
  rank : 2 ≤ t.rank
  fits : Fits S t.bt

/-- A batch of vectors over the universe `S`. -/
structure GoodV [Zero K] (S : Shp) (t : Tensor K) : Prop where
  rank : 1 ≤ t.rank
  fits : Fits S t.sh.tail

section
variable [Zero K] {S : Shp} {r c n : ℕ} {a b t : Tensor K} {f g : Idx → ℕ → ℕ → K} {u v : Idx → ℕ → K}

theorem Rep.self (h : 2 ≤ t.rank) (hS : Fits S t.bt) : Rep S t.rows t.cols t t.at' :=
  ⟨h, rfl, rfl, hS, fun _ _ _ _ _ _ => rfl⟩

theorem Rep.self' (h : 2 ≤ t.rank) (hr : t.rows = r) (hc : t.cols = c) (hS : Fits S t.bt) : Rep S r c t t.at' :=
  ⟨h, hr, hc, hS, fun _ _ _ _ _ _ => rfl⟩

theorem FRep.self (h : Fits (c :: r :: S) t.sh) : FRep S r c t t.at' := ⟨h, fun _ _ _ _ _ _ => rfl⟩

theorem VRep.self (h : 1 ≤ t.rank) (hS : Fits S t.sh.tail) : VRep S t.cols t t.vat :=
  ⟨h, rfl, hS, fun _ _ _ _ => rfl⟩

theorem Rep.frep (h : Rep S r c t f) : FRep S r c t f := ⟨Fits.mat h.rank h.rows h.cols h.bt, h.at'⟩

theorem Rep.sh (h : Rep S r c t f) : t.sh = c :: r :: t.bt := by
  rw [← h.rows, ← h.cols]; exact Tensor.sh_eq h.rank

theorem Rep.ext (ha : Rep a.bt r c a f) (hb : Rep a.bt r c b g) (hbt : a.bt = b.bt)
    (h : ∀ β i j, InRange a.bt β → i < r → j < c → f β i j = g β i j) : a = b := by
  refine Tensor.ext_mat (bt := a.bt) ha.sh (by rw [hbt]; exact hb.sh) ?_
  intro β i j hβ hi hj
  rw [ha.at' β i j hβ hi hj, hb.at' β i j hβ hi hj, h β i j hβ hi hj]

theorem FRep.ext (hsa : a.sh = c :: r :: S) (hsb : b.sh = c :: r :: S) (ha : FRep S r c a f) (hb : FRep S r c b g)
    (h : ∀ β i j, InRange S β → i < r → j < c → f β i j = g β i j) : a = b := by
  refine Tensor.ext_mat hsa hsb ?_
  intro β i j hβ hi hj
  rw [ha.at' β i j hβ hi hj, hb.at' β i j hβ hi hj, h β i j hβ hi hj]

theorem VRep.ext (ha : VRep a.sh.tail n a u) (hb : VRep a.sh.tail n b v) (hbt : a.sh.tail = b.sh.tail)
    (h : ∀ β i, InRange a.sh.tail β → i < n → u β i = v β i) : a = b := by
  have e1 := Tensor.sh_eq_vec ha.rank
  have e2 := Tensor.sh_eq_vec hb.rank
  rw [ha.len] at e1
  rw [hb.len, ← hbt] at e2
  refine Tensor.ext_vec e1 e2 ?_
  intro β i hβ hi
  rw [ha.vat β i hβ hi, hb.vat β i hβ hi, h β i hβ hi]

theorem Rep.congr (ha : Rep S r c t f) (h : ∀ β i j, InRange S β → i < r → j < c → f β i j = g β i j) : Rep S r c t g :=
  ⟨ha.rank, ha.rows, ha.cols, ha.bt, fun β i j hβ hi hj => by rw [ha.at' β i j hβ hi hj, h β i j hβ hi hj]⟩

theorem Rep.zipB (op : K → K → K) (ha : Rep S r c a f) (hb : Rep S r c b g) :
    Rep S r c (zipB op a b) fun β i j => op (f β i j) (g β i j) := by
  have e : (Verif.zipB op a b).sh = c :: r :: bsh a.bt b.bt := by
    rw [zipB_sh, ha.sh, hb.sh]; simp
  refine ⟨by rw [Tensor.rank, e]; simp, by rw [Tensor.rows, e]; simp, by rw [Tensor.cols, e]; simp, by
    rw [Tensor.bt, e]; exact ha.bt.bsh hb.bt, ?_⟩
  intro β i j hβ hi hj
  rw [at_zipB op hβ hi hj ha.frep.fits hb.frep.fits, ha.at' β i j hβ hi hj, hb.at' β i j hβ hi hj]

theorem FRep.zipB (op : K → K → K) (ha : FRep S r c a f) (hb : FRep S r c b g) :
    FRep S r c (zipB op a b) fun β i j => op (f β i j) (g β i j) := by
  refine ⟨ha.fits.bsh hb.fits, ?_⟩
  intro β i j hβ hi hj
  rw [at_zipB op hβ hi hj ha.fits hb.fits, ha.at' β i j hβ hi hj, hb.at' β i j hβ hi hj]

theorem VRep.sh (h : VRep S n t u) : t.sh = n :: t.sh.tail := by
  rw [← h.len]; exact Tensor.sh_eq_vec h.rank

theorem VRep.fits (h : VRep S n t u) : Fits (n :: S) t.sh := by
  have e := h.sh
  have hS := h.bt
  generalize t.sh.tail = q at e hS
  rw [e]; simp [hS]

theorem VRep.zipB (op : K → K → K) (ha : VRep S n a u) (hb : VRep S n b v) :
    VRep S n (zipB op a b) fun β i => op (u β i) (v β i) := by
  have e : (Verif.zipB op a b).sh = n :: bsh a.sh.tail b.sh.tail := by
    rw [zipB_sh]
    have e1 := ha.sh
    have e2 := hb.sh
    generalize a.sh.tail = p at *
    generalize b.sh.tail = q at *
    rw [e1, e2]; simp
  refine ⟨by rw [Tensor.rank, e]; simp, by rw [Tensor.cols, e]; simp, by rw [e]; exact ha.bt.bsh hb.bt, ?_⟩
  intro β i hβ hi
  rw [vat_zipB op hβ hi ha.fits hb.fits, ha.vat β i hβ hi, hb.vat β i hβ hi]

theorem Rep.tmap (op : K → K) (ha : Rep S r c a f) : Rep S r c (tmap op a) fun β i j => op (f β i j) := by
  refine ⟨ha.rank, ha.rows, ha.cols, ha.bt, ?_⟩
  intro β i j hβ hi hj
  rw [at_tmap op hβ hi hj ha.frep.fits, ha.at' β i j hβ hi hj]

theorem FRep.tmap (op : K → K) (ha : FRep S r c a f) : FRep S r c (tmap op a) fun β i j => op (f β i j) := by
  refine ⟨ha.fits, ?_⟩
  intro β i j hβ hi hj
  rw [at_tmap op hβ hi hj ha.fits, ha.at' β i j hβ hi hj]

theorem VRep.tmap (op : K → K) (ha : VRep S n a u) : VRep S n (tmap op a) fun β i => op (u β i) := by
  refine ⟨ha.rank, ha.len, ha.bt, ?_⟩
  intro β i hβ hi
  rw [vat_tmap op hβ hi ha.fits, ha.vat β i hβ hi]

theorem Rep.tr (ha : Rep S r c a f) : Rep S c r (tr a) fun β i j => f β j i := by
  refine ⟨by simp [Tensor.rank], ha.cols, ha.rows, ha.bt, ?_⟩
  intro β i j hβ hi hj
  rw [at_tr hβ ha.bt (by rw [ha.cols]; exact hi) (by rw [ha.rows]; exact hj), ha.at' β j i hβ hj hi]

theorem Rep.mkMat {bt : Shp} (h : Fits S bt) (f : Idx → ℕ → ℕ → K) :
    Rep S r c (mkMat bt r c f) fun β i j => f (clip bt β) i j :=
  ⟨by simp [Tensor.rank], rfl, rfl, h, fun _ _ _ hβ hi hj => at_mkMat f hβ h hi hj⟩

theorem VRep.mkVec {bt : Shp} (h : Fits S bt) (f : Idx → ℕ → K) :
    VRep S n (mkVec bt n f) fun β i => f (clip bt β) i :=
  ⟨by simp [Tensor.rank], rfl, h, fun _ _ hβ hi => vat_mkVec f hβ h hi⟩

theorem Rep.diagC (ha : VRep S n a u) : Rep S n n (diagC a) fun β i j => if i = j then u β i else 0 := by
  refine ⟨by simp [Tensor.rank], ha.len, ha.len, ha.bt, ?_⟩
  intro β i j hβ hi hj
  rw [at_diagC hβ ha.bt (by rw [ha.len]; exact hi) (by rw [ha.len]; exact hj), ha.vat β i hβ hi]

theorem VRep.diagE (ha : Rep S r c a f) : VRep S (min r c) (diagE a) fun β i => f β i i := by
  refine ⟨by simp [Tensor.rank], by rw [← ha.rows, ← ha.cols]; rfl, ha.bt, ?_⟩
  intro β i hβ hi
  rw [vat_diagE hβ ha.bt (by rw [ha.rows, ha.cols]; exact hi), ha.at' β i i hβ (by omega) (by omega)]

theorem Rep.constM (h : Fits S t.sh) (r c : ℕ) : Rep S r c (constM t r c) fun β _ _ => t.get β :=
  ⟨by simp [Tensor.rank], rfl, rfl, h, fun _ _ _ hβ hi hj => at_constM hβ h hi hj⟩

theorem FRep.constM {r' c' : ℕ} (hf : Fits (c :: r :: S) (constM t r' c').sh) :
    FRep S r c (constM t r' c') fun β _ _ => t.get β := by
  refine ⟨hf, fun β i j hβ hi hj => ?_⟩
  rw [constM_sh] at hf
  unfold Tensor.at' Verif.constM Verif.mkMat
  rw [ofFn_get_fits _ (S := c :: r :: S) (by simp [*]) hf, clip_cons, clip_cons]
  exact t.get_clip β

theorem FRep.fill {s : Shp} {x : K} (hf : Fits (c :: r :: S) s) : FRep S r c (fillT s x) fun _ _ _ => x :=
  ⟨hf, fun β i j hβ hi hj => fillT_get x (S := c :: r :: S) (by simp [*]) hf⟩

theorem Rep.fill {bt : Shp} (h : Fits S bt) (r c : ℕ) (x : K) : Rep S r c (fillT (c :: r :: bt) x) fun _ _ _ => x :=
  ⟨by simp [Tensor.rank], rfl, rfl, h, fun _ _ _ hβ hi hj =>
    fillT_get x (S := c :: r :: S) (by simp [*]) (by simp [h])⟩

theorem VRep.fill {bt : Shp} (h : Fits S bt) (n : ℕ) (x : K) : VRep S n (fillT (n :: bt) x) fun _ _ => x :=
  ⟨by simp [Tensor.rank], rfl, h, fun _ _ hβ hi =>
    fillT_get x (S := n :: S) (by simp [*]) (by simp [h])⟩

theorem FRep.expandEnd2 (h : Fits S t.sh) (r c : ℕ) : FRep S r c (expandEnd 2 t) fun β _ _ => t.get β :=
  ⟨by simp [h], fun _ i j hβ _ _ => at_expandEnd_two i j hβ h⟩

theorem FRep.expandEnd1 (ha : VRep S r t u) (c : ℕ) : FRep S r c (expandEnd 1 t) fun β i _ => u β i := by
  refine ⟨by simp only [expandEnd_one_sh, fits_cons]; exact ⟨Or.inl trivial, ha.fits⟩, ?_⟩
  intro β i j hβ hi hj
  rw [at_expandEnd_one j hβ ha.bt (by rw [ha.len]; exact hi) ha.rank, ha.vat β i hβ hi]

theorem Rep.expandEnd1 (ha : VRep S r t u) : Rep S r 1 (expandEnd 1 t) fun β i _ => u β i := by
  have e : (Verif.expandEnd 1 t).sh = 1 :: r :: t.sh.tail := by
    have := ha.sh; generalize t.sh.tail = q at *; simp [this]
  refine ⟨by simp [Tensor.rank, e], by simp [Tensor.rows, e], by simp [Tensor.cols, e], by
    rw [Tensor.bt, e]; exact ha.bt, ?_⟩
  intro β i j hβ hi hj
  exact (FRep.expandEnd1 ha 1).at' β i j hβ hi hj

theorem FRep.expandRow (ha : VRep S c t u) (r : ℕ) : FRep S r c (expandRow t) fun β _ j => u β j := by
  refine ⟨by rw [expandRow_sh, ha.len]; simp [ha.bt], ?_⟩
  intro β i j hβ hi hj
  rw [at_expandRow i hβ ha.bt (by rw [ha.len]; exact hj), ha.vat β j hβ hj]

theorem Rep.expandRow (ha : VRep S c t u) : Rep S 1 c (expandRow t) fun β _ j => u β j :=
  ⟨by simp [Tensor.rank], rfl, ha.len, ha.bt, (FRep.expandRow ha 1).at'⟩

theorem Rep.bcast {bt : Shp} (h : Fits S bt) (hf : Fits (c :: r :: bt) t.sh) (ha : FRep S r c t f) :
    Rep S r c (bcast (c :: r :: bt) t) f := by
  refine ⟨by simp [Tensor.rank], rfl, rfl, h, ?_⟩
  intro β i j hβ hi hj
  rw [← ha.at' β i j hβ hi hj]
  exact bcast_get (S := c :: r :: S) (by simp [*]) (by simp [h]) hf

theorem Rep.headRows (n : ℕ) (ha : Rep S r c a f) : Rep S (min n r) c (headRows n a) f := by
  refine ⟨by simp [Tensor.rank, Verif.headRows], by simp [Tensor.rows, Verif.headRows, ← ha.rows], ha.cols, ha.bt, ?_⟩
  intro β i j hβ hi hj
  rw [Verif.headRows, at_mkMat _ hβ ha.bt (by rw [ha.rows]; exact hi) (by rw [ha.cols]; exact hj),
    Tensor.at'_clip (Fits.refl _), ha.at' β i j hβ (by omega) hj]

end

section
variable [CommRing K] {S : Shp} {r c k n : ℕ} {a b t : Tensor K} {f g : Idx → ℕ → ℕ → K} {u v : Idx → ℕ → K}

theorem Good.mm (ha : Good S a) (hb : Good S b) : Good S (mm a b) :=
  ⟨by simp [Tensor.rank], ha.fits.bsh hb.fits⟩
theorem Good.tr (ha : Good S a) : Good S (tr a) := ⟨by simp [Tensor.rank], ha.fits⟩
theorem Good.trIf (b : Bool) (ha : Good S a) : Good S (trIf b a) := by cases b; exacts [ha, ha.tr]
theorem Good.kronT (ha : Good S a) (hb : Good S b) : Good S (kronT a b) :=
  ⟨by simp [Tensor.rank], ha.fits.bsh hb.fits⟩
theorem Good.diagC (ha : GoodV S a) : Good S (diagC a) := ⟨by simp [Tensor.rank], ha.fits⟩
theorem Good.constM (h : Fits S a.sh) (r c : ℕ) : Good S (constM a r c) := ⟨by simp [Tensor.rank], h⟩
theorem Good.fill {bt : Shp} (h : Fits S bt) (r c : ℕ) (x : K) : Good S (fillT (c :: r :: bt) x) :=
  ⟨by simp [Tensor.rank], h⟩
theorem Good.zipB (op : K → K → K) (ha : Good S a) (hb : Good S b) : Good S (zipB op a b) :=
  ⟨by have := ha.rank; simp only [Tensor.rank, zipB_sh, length_bsh] at *; omega, by
    simp only [Tensor.bt, zipB_sh, drop_bsh]; exact ha.fits.bsh hb.fits⟩
theorem GoodV.zipB (op : K → K → K) (ha : GoodV S a) (hb : GoodV S b) : GoodV S (zipB op a b) :=
  ⟨by have := ha.rank; simp only [Tensor.rank, zipB_sh, length_bsh] at *; omega, by
    simp only [zipB_sh, ← List.drop_one, drop_bsh]
    have h1 := ha.fits; have h2 := hb.fits
    rw [← List.drop_one] at h1 h2
    exact h1.bsh h2⟩
theorem GoodV.tmap (op : K → K) (ha : GoodV S a) : GoodV S (tmap op a) := ⟨ha.rank, ha.fits⟩
theorem Good.tmap (op : K → K) (ha : Good S a) : Good S (tmap op a) := ⟨ha.rank, ha.fits⟩
theorem GoodV.diagE (ha : Good S a) : GoodV S (diagE a) := ⟨by simp [Tensor.rank], ha.fits⟩
theorem Good.expandEnd1 (ha : GoodV S a) : Good S (expandEnd 1 a) :=
  ⟨by have := ha.rank; simp only [Tensor.rank, expandEnd_one_sh, List.length_cons] at *; omega, by
    have := ha.fits; simpa [Tensor.bt, expandEnd_one_sh] using this⟩
theorem Good.expandRow (ha : GoodV S a) : Good S (expandRow a) := ⟨by simp [Tensor.rank], ha.fits⟩
theorem Good.rep (ha : Good S a) : Rep S a.rows a.cols a a.at' := Rep.self ha.rank ha.fits

theorem Rep.good (h : Rep S r c a f) : Good S a := ⟨h.rank, h.bt⟩
theorem VRep.good (h : VRep S n a u) : GoodV S a := ⟨h.rank, h.bt⟩

theorem Rep.mm (ha : Rep S r k a f) (hb : Rep S k c b g) :
    Rep S r c (mm a b) fun β i j => ∑ x ∈ Finset.range k, f β i x * g β x j := by
  refine ⟨by simp [Tensor.rank], ha.rows, hb.cols, ha.bt.bsh hb.bt, ?_⟩
  intro β i j hβ hi hj
  rw [at_mm hβ ha.bt hb.bt (by rw [ha.rows]; exact hi) (by rw [hb.cols]; exact hj), ha.cols]
  refine Finset.sum_congr rfl fun x hx => ?_
  rw [Finset.mem_range] at hx
  rw [ha.at' β i x hβ hi hx, hb.at' β x j hβ hx hj]

theorem Rep.kronT {r' c' : ℕ} (ha : Rep S r c a f) (hb : Rep S r' c' b g) :
    Rep S (r * r') (c * c') (kronT a b) fun β i j => f β (i / r') (j / c') * g β (i % r') (j % c') := by
  refine ⟨by simp [Tensor.rank], by rw [← ha.rows, ← hb.rows]; rfl, by rw [← ha.cols, ← hb.cols]; rfl,
    ha.bt.bsh hb.bt, ?_⟩
  intro β i j hβ hi hj
  have hc := ha.bt.compat hb.bt
  have hr' : 0 < r' := by rcases Nat.eq_zero_or_pos r' with h | h; · simp [h] at hi
                          · exact h
  have hc' : 0 < c' := by rcases Nat.eq_zero_or_pos c' with h | h; · simp [h] at hj
                          · exact h
  rw [Verif.kronT, at_mkMat _ hβ (ha.bt.bsh hb.bt) (by rw [ha.rows, hb.rows]; exact hi) (by rw [ha.cols, hb.cols]; exact hj),
    Tensor.at'_clip hc.fits_left, Tensor.at'_clip hc.fits_right, hb.rows, hb.cols,
    ha.at' _ _ _ hβ (Nat.div_lt_of_lt_mul (by rwa [Nat.mul_comm])) (Nat.div_lt_of_lt_mul (by rwa [Nat.mul_comm])),
    hb.at' _ _ _ hβ (Nat.mod_lt _ hr') (Nat.mod_lt _ hc')]

theorem VRep.kronV {n' : ℕ} (ha : VRep S n a u) (hb : VRep S n' b v) :
    VRep S (n * n') (kronV a b) fun β i => u β (i / n') * v β (i % n') := by
  refine ⟨by simp [Tensor.rank, Verif.kronV], by rw [← ha.len, ← hb.len]; rfl,
    ha.bt.bsh hb.bt, ?_⟩
  intro β i hβ hi
  have hc := ha.bt.compat hb.bt
  have hr' : 0 < n' := by rcases Nat.eq_zero_or_pos n' with h | h; · simp [h] at hi
                          · exact h
  rw [Verif.kronV, vat_mkVec _ hβ (ha.bt.bsh hb.bt) (by rw [ha.len, hb.len]; exact hi),
    Tensor.vat_clip hc.fits_left, Tensor.vat_clip hc.fits_right, hb.len,
    ha.vat _ _ hβ (Nat.div_lt_of_lt_mul (by rwa [Nat.mul_comm])),
    hb.vat _ _ hβ (Nat.mod_lt _ hr')]

theorem sumAx_sh (k : ℕ) (t : Tensor K) : (sumAx k t).sh = t.sh.eraseIdx k := rfl

theorem VRep.sumAx0 (ha : Rep S r c a f) :
    VRep S r (sumAx 0 a) fun β i => ∑ x ∈ Finset.range c, f β i x := by
  have e : (sumAx 0 a).sh = r :: a.bt := by rw [sumAx_sh]; conv_lhs => rw [ha.sh]
                                            rfl
  refine ⟨by simp [Tensor.rank, e], by simp [Tensor.cols, e], by rw [e]; exact ha.bt, ?_⟩
  intro β i hβ hi
  have hin : InRange (r :: S) (icons i β) := by simp [*]
  unfold Tensor.vat sumAx
  have e' : a.sh.eraseIdx 0 = r :: a.bt := e
  rw [ofFn_get_fits _ hin (by rw [e']; simp [ha.bt]), e']
  rw [show dim a.sh 0 = c from ha.cols]
  refine Finset.sum_congr rfl fun x hx => ?_
  rw [Finset.mem_range] at hx
  rw [clip_cons_of_lt hi]
  rw [← ha.at' β i x hβ hi hx, ← Tensor.at'_clip (Fits.refl _)]
  rfl

theorem VRep.sumAx1 (ha : Rep S r c a f) :
    VRep S c (sumAx 1 a) fun β j => ∑ x ∈ Finset.range r, f β x j := by
  have e : (sumAx 1 a).sh = c :: a.bt := by rw [sumAx_sh]; conv_lhs => rw [ha.sh]
                                            rfl
  refine ⟨by simp [Tensor.rank, e], by simp [Tensor.cols, e], by rw [e]; exact ha.bt, ?_⟩
  intro β i hβ hi
  have hin : InRange (c :: S) (icons i β) := by simp [*]
  unfold Tensor.vat sumAx
  have e' : a.sh.eraseIdx 1 = c :: a.bt := e
  rw [ofFn_get_fits _ hin (by rw [e']; simp [ha.bt]), e']
  rw [show dim a.sh 1 = r from ha.rows]
  refine Finset.sum_congr rfl fun x hx => ?_
  rw [Finset.mem_range] at hx
  rw [clip_cons_of_lt hi]
  rw [← ha.at' β x i hβ hx hi, ← Tensor.at'_clip (Fits.refl _)]
  rfl

/-! ### Equalities -/

theorem mm_assoc {a b c : Tensor K} (ga : Good S a) (gb : Good S b) (gc : Good S c) (h1 : a.cols = b.rows) (h2 : b.cols = c.rows) :
    mm (mm a b) c = mm a (mm b c) := by
  obtain ⟨ra, ha⟩ := ga
  obtain ⟨rb, hb⟩ := gb
  obtain ⟨rc, hc⟩ := gc
  have fa : Fits (mm (mm a b) c).bt a.bt := by simp only [mm_bt]; fits
  have fb : Fits (mm (mm a b) c).bt b.bt := by simp only [mm_bt]; fits
  have fc : Fits (mm (mm a b) c).bt c.bt := by simp only [mm_bt]; fits
  refine Rep.ext
    (((Rep.self ra fa).mm (Rep.self' rb h1.symm h2 fb)).mm (Rep.self rc fc))
    ((Rep.self ra fa).mm ((Rep.self' rb h1.symm h2 fb).mm (Rep.self rc fc))) (by simp only [mm_bt]; bsh_ac) ?_
  intro β i j _ _ _
  simp only [Finset.sum_mul, Finset.mul_sum, mul_assoc]
  exact Finset.sum_comm

theorem tr_mm {a b : Tensor K} (ga : Good S a) (gb : Good S b) (h1 : a.cols = b.rows) : tr (mm a b) = mm (tr b) (tr a) := by
  obtain ⟨ra, ha⟩ := ga
  obtain ⟨rb, hb⟩ := gb
  have fa : Fits (tr (mm a b)).bt a.bt := by simp only [mm_bt, tr_bt]; fits
  have fb : Fits (tr (mm a b)).bt b.bt := by simp only [mm_bt, tr_bt]; fits
  have A := Rep.self ra fa
  have B := Rep.self' rb h1.symm rfl fb
  refine Rep.ext (A.mm B).tr (B.tr.mm A.tr) (by simp only [mm_bt, tr_bt]; exact bsh_comm _ _) ?_
  intro β i j _ _ _
  exact Finset.sum_congr rfl fun _ _ => mul_comm _ _

theorem zipB_bt {op : K → K → K} {a b : Tensor K} : (zipB op a b).bt = bsh a.bt b.bt := by
  simp [Tensor.bt, drop_bsh]

theorem zipB_rows {op : K → K → K} {a b : Tensor K} : (zipB op a b).rows = bd a.rows b.rows := by
  simp [Tensor.rows]
theorem zipB_cols {op : K → K → K} {a b : Tensor K} : (zipB op a b).cols = bd a.cols b.cols := by
  simp [Tensor.cols]

theorem tr_zipB (op : K → K → K) {a b : Tensor K} (ga : Good S a) (gb : Good S b) (hr : a.rows = b.rows) (hc : a.cols = b.cols) :
    tr (zipB op a b) = zipB op (tr a) (tr b) := by
  obtain ⟨ra, ha⟩ := ga
  obtain ⟨rb, hb⟩ := gb
  have fa : Fits (tr (zipB op a b)).bt a.bt := by simp only [tr_bt, zipB_bt]; fits
  have fb : Fits (tr (zipB op a b)).bt b.bt := by simp only [tr_bt, zipB_bt]; fits
  have A := Rep.self ra fa
  have B := Rep.self' rb hr.symm hc.symm fb
  exact Rep.ext (A.zipB op B).tr (A.tr.zipB op B.tr) (by simp only [zipB_bt, tr_bt]) fun _ _ _ _ _ _ => rfl

theorem zipB_comm (op : K → K → K) (hop : ∀ x y, op x y = op y x) (a b : Tensor K) : zipB op a b = zipB op b a := by
  unfold zipB
  rw [bsh_comm]
  congr 1
  funext i
  exact hop _ _

theorem zipB_assoc (op : K → K → K) (hop : ∀ x y z, op (op x y) z = op x (op y z)) {a b c : Tensor K} {T : Shp}
    (ha : Fits T a.sh) (hb : Fits T b.sh) (hc : Fits T c.sh) :
    zipB op (zipB op a b) c = zipB op a (zipB op b c) := by
  refine Tensor.ext_inRange (by simp [bsh_assoc]) ?_
  intro i hi
  simp only [zipB_sh] at hi
  have fa : Fits (bsh (bsh a.sh b.sh) c.sh) a.sh := by fits
  have fb : Fits (bsh (bsh a.sh b.sh) c.sh) b.sh := by fits
  have fc : Fits (bsh (bsh a.sh b.sh) c.sh) c.sh := by fits
  rw [zipB_get op hi (fa.bsh fb) fc, zipB_get op hi fa fb, zipB_get op hi fa (fb.bsh fc), zipB_get op hi fb fc, hop]

theorem mm_add_left {a b c : Tensor K} (ga : Good S a) (gb : Good S b) (gc : Good S c) (hr : a.rows = b.rows) (hcl : a.cols = b.cols)
    (h : a.cols = c.rows) :
    mm (zipB (· + ·) a b) c = zipB (· + ·) (mm a c) (mm b c) := by
  obtain ⟨ra, ha⟩ := ga
  obtain ⟨rb, hb⟩ := gb
  obtain ⟨rc, hc⟩ := gc
  have e : (mm (zipB (· + ·) a b) c).bt = bsh (bsh a.bt b.bt) c.bt := by simp only [mm_bt, zipB_bt]
  have fa : Fits (mm (zipB (· + ·) a b) c).bt a.bt := by rw [e]; fits
  have fb : Fits (mm (zipB (· + ·) a b) c).bt b.bt := by rw [e]; fits
  have fc : Fits (mm (zipB (· + ·) a b) c).bt c.bt := by rw [e]; fits
  have A := Rep.self ra fa
  have B := Rep.self' rb hr.symm hcl.symm fb
  have C := Rep.self' rc h.symm rfl fc
  refine Rep.ext ((A.zipB _ B).mm C) ((A.mm C).zipB _ (B.mm C)) (by simp only [zipB_bt, mm_bt]; bsh_ac) ?_
  intro β i j _ _ _
  simp only [add_mul, Finset.sum_add_distrib]

theorem mm_add_right {a b c : Tensor K} (ga : Good S a) (gb : Good S b) (gc : Good S c) (hr : b.rows = c.rows) (hcl : b.cols = c.cols)
    (h : a.cols = b.rows) :
    mm a (zipB (· + ·) b c) = zipB (· + ·) (mm a b) (mm a c) := by
  obtain ⟨ra, ha⟩ := ga
  obtain ⟨rb, hb⟩ := gb
  obtain ⟨rc, hc⟩ := gc
  have e : (mm a (zipB (· + ·) b c)).bt = bsh a.bt (bsh b.bt c.bt) := by simp only [mm_bt, zipB_bt]
  have fa : Fits (mm a (zipB (· + ·) b c)).bt a.bt := by rw [e]; fits
  have fb : Fits (mm a (zipB (· + ·) b c)).bt b.bt := by rw [e]; fits
  have fc : Fits (mm a (zipB (· + ·) b c)).bt c.bt := by rw [e]; fits
  have A := Rep.self' ra rfl h fa
  have B := Rep.self rb fb
  have C := Rep.self' rc hr.symm hcl.symm fc
  refine Rep.ext (A.mm (B.zipB _ C)) ((A.mm B).zipB _ (A.mm C)) (by simp only [zipB_bt, mm_bt]; bsh_ac) ?_
  intro β i j _ _ _
  simp only [mul_add, Finset.sum_add_distrib]

theorem sum_ite_mul_left {n i : ℕ} (hi : i < n) (u : K) (g : ℕ → K) :
    ∑ x ∈ Finset.range n, (if i = x then u else 0) * g x = u * g i := by
  rw [Finset.sum_eq_single i]
  · simp
  · intro x _ hx; rw [if_neg (Ne.symm hx), zero_mul]
  · intro h; exact absurd (Finset.mem_range.2 hi) h

theorem sum_ite_mul_right {n j : ℕ} (hj : j < n) (u : ℕ → K) (g : ℕ → K) :
    ∑ x ∈ Finset.range n, g x * (if x = j then u x else 0) = g j * u j := by
  rw [Finset.sum_eq_single j]
  · simp
  · intro x _ hx; rw [if_neg hx, mul_zero]
  · intro h; exact absurd (Finset.mem_range.2 hj) h

/-- A diagonal left factor scales the rows. -/
theorem mm_diagC_left {v b : Tensor K} (gv : GoodV S v) (gb : Good S b) (h : v.cols = b.rows) :
    mm (diagC v) b = zipB (· * ·) (expandEnd 1 v) b := by
  obtain ⟨rv, hv⟩ := gv
  obtain ⟨rb, hb⟩ := gb
  have e : (mm (diagC v) b).bt = bsh v.sh.tail b.bt := by simp only [mm_bt, diagC_bt]
  have fv : Fits (mm (diagC v) b).bt v.sh.tail := by rw [e]; fits
  have fb : Fits (mm (diagC v) b).bt b.bt := by rw [e]; fits
  have V := VRep.self rv fv
  have B := Rep.self' rb h.symm rfl fb
  have hsh := V.sh
  refine FRep.ext (S := (mm (diagC v) b).bt) (((Rep.diagC V).mm B).sh) ?_ ((Rep.diagC V).mm B).frep
    (FRep.zipB _ (FRep.expandEnd1 V _) B.frep) ?_
  · rw [zipB_sh, expandEnd_one_sh, B.sh, e]
    generalize v.sh.tail = q at *
    rw [hsh]; simp
  · intro β i j _ hi hj
    exact sum_ite_mul_left hi _ _

/-- A diagonal right factor scales the columns. -/
theorem mm_diagC_right {v b : Tensor K} (gv : GoodV S v) (gb : Good S b) (h : b.cols = v.cols) :
    mm b (diagC v) = zipB (· * ·) b (expandRow v) := by
  obtain ⟨rv, hv⟩ := gv
  obtain ⟨rb, hb⟩ := gb
  have e : (mm b (diagC v)).bt = bsh b.bt v.sh.tail := by simp only [mm_bt, diagC_bt]
  have fv : Fits (mm b (diagC v)).bt v.sh.tail := by rw [e]; fits
  have fb : Fits (mm b (diagC v)).bt b.bt := by rw [e]; fits
  have V := VRep.self rv fv
  have B := Rep.self' rb rfl h fb
  refine FRep.ext (S := (mm b (diagC v)).bt) ((B.mm (Rep.diagC V)).sh) ?_ (B.mm (Rep.diagC V)).frep
    (FRep.zipB _ B.frep (FRep.expandRow V _)) ?_
  · rw [zipB_sh, expandRow_sh, B.sh, e]; simp
  · intro β i j _ hi hj
    exact sum_ite_mul_right hj _ _

theorem mm_diagC_diagC {u v : Tensor K} (gu : GoodV S u) (gv : GoodV S v) (h : u.cols = v.cols) :
    mm (diagC u) (diagC v) = diagC (zipB (· * ·) u v) := by
  obtain ⟨ru, hu⟩ := gu
  obtain ⟨rv, hv⟩ := gv
  have e : (mm (diagC u) (diagC v)).bt = bsh u.sh.tail v.sh.tail := by simp only [mm_bt, diagC_bt]
  have fu : Fits (mm (diagC u) (diagC v)).bt u.sh.tail := by rw [e]; fits
  have fv : Fits (mm (diagC u) (diagC v)).bt v.sh.tail := by rw [e]; fits
  have U := VRep.self ru fu
  have V : VRep _ u.cols v v.vat := h ▸ VRep.self rv fv
  refine Rep.ext ((Rep.diagC U).mm (Rep.diagC V)) (Rep.diagC (U.zipB _ V)) ?_ ?_
  · rw [e, diagC_bt, zipB_sh]
    have e1 := U.sh; have e2 := V.sh
    generalize u.sh.tail = p at *
    generalize v.sh.tail = q at *
    rw [e1, e2]; simp
  · intro β i j _ hi hj
    rw [sum_ite_mul_left hi]
    by_cases hij : i = j <;> simp [hij]

theorem tr_diagC {v : Tensor K} (rv : 1 ≤ v.rank) : tr (diagC v) = diagC v := by
  have V := VRep.self rv (Fits.refl _)
  refine Rep.ext (Rep.diagC V).tr (Rep.diagC V) rfl ?_
  intro β i j _ hi hj
  by_cases hij : i = j
  · simp [hij]
  · simp [hij, Ne.symm hij]

theorem zipB_diagC (op : K → K → K) (h0 : op 0 0 = 0) {u v : Tensor K} (gu : GoodV S u) (gv : GoodV S v) (h : u.cols = v.cols) :
    zipB op (diagC u) (diagC v) = diagC (zipB op u v) := by
  obtain ⟨ru, hu⟩ := gu
  obtain ⟨rv, hv⟩ := gv
  have e : (zipB op (diagC u) (diagC v)).bt = bsh u.sh.tail v.sh.tail := by simp only [zipB_bt, diagC_bt]
  have fu : Fits (zipB op (diagC u) (diagC v)).bt u.sh.tail := by rw [e]; fits
  have fv : Fits (zipB op (diagC u) (diagC v)).bt v.sh.tail := by rw [e]; fits
  have U := VRep.self ru fu
  have V : VRep _ u.cols v v.vat := h ▸ VRep.self rv fv
  refine Rep.ext ((Rep.diagC U).zipB _ (Rep.diagC V)) (Rep.diagC (U.zipB _ V)) ?_ ?_
  · rw [e, diagC_bt, zipB_sh]
    have e1 := U.sh; have e2 := V.sh
    generalize u.sh.tail = p at *
    generalize v.sh.tail = q at *
    rw [e1, e2]; simp
  · intro β i j _ hi hj
    by_cases hij : i = j <;> simp [hij, h0]

theorem tr_constM (t : Tensor K) (r c : ℕ) : tr (constM t r c) = constM t c r :=
  Rep.ext (Rep.constM (Fits.refl _) r c).tr (Rep.constM (Fits.refl _) c r) rfl fun _ _ _ _ _ _ => rfl

theorem tr_fill (bt : Shp) (r c : ℕ) (x : K) : tr (fillT (c :: r :: bt) x) = fillT (r :: c :: bt) x :=
  Rep.ext (Rep.fill (Fits.refl _) r c x).tr (Rep.fill (Fits.refl _) c r x) rfl fun _ _ _ _ _ _ => rfl

/-! ### Kronecker products -/

theorem kronT_bt (a b : Tensor K) : (kronT a b).bt = bsh a.bt b.bt := rfl
@[simp] theorem kronT_rows (a b : Tensor K) : (kronT a b).rows = a.rows * b.rows := rfl
@[simp] theorem kronT_cols (a b : Tensor K) : (kronT a b).cols = a.cols * b.cols := rfl

theorem kron_lt {a b i : ℕ} (h : i < a * b) : i / b < a ∧ i % b < b := by
  have hb : 0 < b := by rcases Nat.eq_zero_or_pos b with h' | h'; · simp [h'] at h
                        · exact h'
  exact ⟨Nat.div_lt_of_lt_mul (by rwa [Nat.mul_comm]), Nat.mod_lt _ hb⟩

theorem sum_range_mul (m n : ℕ) (f : ℕ → K) :
    ∑ x ∈ Finset.range (m * n), f x = ∑ p ∈ Finset.range m, ∑ q ∈ Finset.range n, f (p * n + q) := by
  induction m with
  | zero => simp
  | succ m ih => rw [Nat.succ_mul, Finset.sum_range_add, ih, Finset.sum_range_succ]

theorem sum_kron (m n : ℕ) (f g : ℕ → K) :
    ∑ x ∈ Finset.range (m * n), f (x / n) * g (x % n) = (∑ p ∈ Finset.range m, f p) * ∑ q ∈ Finset.range n, g q := by
  rw [sum_range_mul, Finset.sum_mul]
  refine Finset.sum_congr rfl fun p _ => ?_
  rw [Finset.mul_sum]
  refine Finset.sum_congr rfl fun q hq => ?_
  rw [Finset.mem_range] at hq
  have hn : 0 < n := by omega
  rw [Nat.mul_comm p n, Nat.mul_add_div hn, Nat.div_eq_of_lt hq, Nat.mul_add_mod, Nat.mod_eq_of_lt hq, Nat.add_zero]

theorem mm_kronT {a b c d : Tensor K} (ga : Good S a) (gb : Good S b) (gc : Good S c) (gd : Good S d)
    (h1 : a.cols = c.rows) (h2 : b.cols = d.rows) :
    mm (kronT a b) (kronT c d) = kronT (mm a c) (mm b d) := by
  obtain ⟨ra, ha⟩ := ga
  obtain ⟨rb, hb⟩ := gb
  obtain ⟨rc, hc⟩ := gc
  obtain ⟨rd, hd⟩ := gd
  have e : (mm (kronT a b) (kronT c d)).bt = bsh (bsh a.bt b.bt) (bsh c.bt d.bt) := by
    simp only [mm_bt, Tensor.bt, kronT_sh]; rfl
  have fa : Fits (mm (kronT a b) (kronT c d)).bt a.bt := by rw [e]; fits
  have fb : Fits (mm (kronT a b) (kronT c d)).bt b.bt := by rw [e]; fits
  have fc : Fits (mm (kronT a b) (kronT c d)).bt c.bt := by rw [e]; fits
  have fd : Fits (mm (kronT a b) (kronT c d)).bt d.bt := by rw [e]; fits
  have A := Rep.self ra fa
  have B := Rep.self rb fb
  have C := Rep.self' rc h1.symm rfl fc
  have D := Rep.self' rd h2.symm rfl fd
  refine Rep.ext ((A.kronT B).mm (C.kronT D)) ((A.mm C).kronT (B.mm D)) ?_ ?_
  · rw [e, kronT_bt, mm_bt, mm_bt]; bsh_ac
  · intro β i j _ hi hj
    rw [← sum_kron]
    refine Finset.sum_congr rfl fun _ _ => ?_
    ring

theorem tr_kronT {a b : Tensor K} (ga : Good S a) (gb : Good S b) :
    tr (kronT a b) = kronT (tr a) (tr b) := by
  obtain ⟨ra, ha⟩ := ga
  obtain ⟨rb, hb⟩ := gb
  have e : (tr (kronT a b)).bt = bsh a.bt b.bt := rfl
  have fa : Fits (tr (kronT a b)).bt a.bt := by rw [e]; fits
  have fb : Fits (tr (kronT a b)).bt b.bt := by rw [e]; fits
  have A := Rep.self ra fa
  have B := Rep.self rb fb
  exact Rep.ext (A.kronT B).tr (A.tr.kronT B.tr) rfl fun _ _ _ _ _ _ => rfl


theorem zipB_mul_kronT {a b c d : Tensor K} (ga : Good S a) (gb : Good S b) (gc : Good S c) (gd : Good S d)
    (h1 : a.rows = c.rows) (h2 : a.cols = c.cols) (h3 : b.rows = d.rows) (h4 : b.cols = d.cols) :
    zipB (· * ·) (kronT a b) (kronT c d) = kronT (zipB (· * ·) a c) (zipB (· * ·) b d) := by
  obtain ⟨ra, ha⟩ := ga
  obtain ⟨rb, hb⟩ := gb
  obtain ⟨rc, hc⟩ := gc
  obtain ⟨rd, hd⟩ := gd
  have e : (zipB (· * ·) (kronT a b) (kronT c d)).bt = bsh (bsh a.bt b.bt) (bsh c.bt d.bt) := by
    simp only [zipB_bt, kronT_bt]
  have fa : Fits (zipB (· * ·) (kronT a b) (kronT c d)).bt a.bt := by rw [e]; fits
  have fb : Fits (zipB (· * ·) (kronT a b) (kronT c d)).bt b.bt := by rw [e]; fits
  have fc : Fits (zipB (· * ·) (kronT a b) (kronT c d)).bt c.bt := by rw [e]; fits
  have fd : Fits (zipB (· * ·) (kronT a b) (kronT c d)).bt d.bt := by rw [e]; fits
  have A := Rep.self ra fa
  have B := Rep.self rb fb
  have C := Rep.self' rc h1.symm h2.symm fc
  have D := Rep.self' rd h3.symm h4.symm fd
  refine Rep.ext ((A.kronT B).zipB _ (C.kronT D)) ((A.zipB _ C).kronT (B.zipB _ D)) ?_ ?_
  · rw [e, kronT_bt, zipB_bt, zipB_bt]; bsh_ac
  · intro β i j _ hi hj
    ring

end

end Verif
