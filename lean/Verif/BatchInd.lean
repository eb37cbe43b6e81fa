/-
C39 for whole expressions, log-determinants and quadratic forms: batch element `β` of the result depends only on batch element `β` of the operands.
-/
import Verif.LinExpr
import Verif.Props05

set_option linter.unusedSectionVars false

namespace Verif

variable {K : Type} [Field K] [LinearOrder K] [IsStrictOrderedRing K]

/-- Batch element `β` of `a` is batch element `β'` of `a'`. -/
structure SameBatch (β β' : Idx) (a a' : Tensor K) : Prop where
  rows : a.rows = a'.rows
  cols : a.cols = a'.cols
  entries : ∀ i j, i < a.rows → j < a.cols → a.at' β i j = a'.at' β' i j

namespace LExpr

/-- The expressions have the same form and their matrices are related by `R`. -/
inductive Same (R : Mat K → Mat K → Prop) : LExpr K → LExpr K → Prop
  | mat {a b} : R a b → Same R (.mat a) (.mat b)
  | add {e f e' f'} : Same R e e' → Same R f f' → Same R (.add e f) (.add e' f')
  | sub {e f e' f'} : Same R e e' → Same R f f' → Same R (.sub e f) (.sub e' f')
  | mul {e f e' f'} : Same R e e' → Same R f f' → Same R (.mul e f) (.mul e' f')
  | div {e f e' f'} : Same R e e' → Same R f f' → Same R (.div e f) (.div e' f')
  | matmul {ta tb e f e' f'} : Same R e e' → Same R f f' → Same R (.matmul ta tb e f) (.matmul ta tb e' f')
  | neg {e e'} : Same R e e' → Same R (.neg e) (.neg e')
  | tr {e e'} : Same R e e' → Same R (.tr e) (.tr e')
  | scale {x e e'} : Same R e e' → Same R (.scale x e) (.scale x e')
  | shift {x e e'} : Same R e e' → Same R (.shift e x) (.shift e' x)
  | inv {e e'} : Same R e e' → Same R (.inv e) (.inv e')
  | solve {e f e' f'} : Same R e e' → Same R f f' → Same R (.solve e f) (.solve e' f')

/-- Every linear system in the expression has one solution in batch element `β`. -/
def RegularAt (β : Idx) : LExpr K → Prop
  | .mat _ => True
  | .add e f | .sub e f | .mul e f | .div e f | .matmul _ _ e f => e.RegularAt β ∧ f.RegularAt β
  | .neg e | .tr e | .scale _ e | .shift e _ | .inv e => e.RegularAt β
  | .solve e f => e.RegularAt β ∧ f.RegularAt β ∧ ∀ x, e.Denotes x → (mxOf x β x.rows x.rows).det ≠ 0

/-- A value of an expression that makes sense has the right size. -/
theorem Denotes.rep {e : LExpr K} {S : Shp} {r c : ℕ} {t : Tensor K} (h : e.Denotes t) (ht : e.Typed S r c) : Rep S r c t t.at' := by
  have tr {a b : Tensor K} {r c : ℕ} (ha : Rep S r c a a.at') (h : IsTranspose a b) : Rep S c r b b.at' := by
    rw [h.eq ha.rank]
    have := ha.tr
    exact Rep.self' this.rank this.rows this.cols this.bt
  induction e generalizing r c t with
  | mat a =>
    obtain ⟨w, h2, rfl, rfl, _⟩ := ht
    cases h
    exact Rep.self h2 w.fits
  | add e f he hf | sub e f he hf | mul e f he hf =>
    obtain ⟨x, y, h1, h2, h3⟩ := h
    have := (he h1 ht.1).zipB (fun a _ => a) (hf h2 ht.2)
    rw [h3.eq]
    exact Rep.self' this.rank this.rows this.cols this.bt
  | div e f he hf =>
    obtain ⟨x, y, h1, h2, _, h3⟩ := h
    have := (he h1 ht.1).zipB (fun a _ => a) (hf h2 ht.2)
    rw [h3.eq]
    exact Rep.self' this.rank this.rows this.cols this.bt
  | matmul ta tb e f he hf =>
    obtain ⟨x, y, x', y', h1, h2, h3, h4, h5⟩ := h
    obtain ⟨k, t1, t2⟩ := ht
    have a : Rep S r k x' x'.at' := by
      cases ta
      · cases h3; exact he h1 t1
      · exact tr (he h1 t1) h3
    have b : Rep S k c y' y'.at' := by
      cases tb
      · cases h4; exact hf h2 t2
      · exact tr (hf h2 t2) h4
    have := a.mm b
    rw [h5.eq a.rank b.rank]
    exact Rep.self' this.rank this.rows this.cols this.bt
  | neg e he | scale _ e he | shift e _ he =>
    obtain ⟨x, h1, h2⟩ := h
    have := (he h1 ht).tmap fun a => a
    rw [h2.eq]
    exact Rep.self' this.rank this.rows this.cols this.bt
  | tr e he =>
    obtain ⟨x, h1, h2⟩ := h
    exact tr (he h1 ht) h2
  | inv e he =>
    obtain ⟨x, h1, h2⟩ := h
    obtain ⟨rfl, ht⟩ := ht
    have := he h1 ht
    exact Rep.self' (by rw [rank_of_sh h2.shape]; exact this.rank) (by rw [rows_of_sh h2.shape]; exact this.rows) (by rw [cols_of_sh h2.shape]; exact this.cols)
      (by rw [bt_of_sh h2.shape]; exact this.bt)
  | solve e f he hf =>
    obtain ⟨x, y, h1, h2, h3⟩ := h
    have a := he h1 ht.1
    have b := hf h2 ht.2
    rcases h3 with h3 | ⟨_, rfl⟩
    · exact Rep.self' (by simp [Tensor.rank, h3.shape]) (by rw [Tensor.rows, h3.shape]; exact a.rows) (by rw [Tensor.cols, h3.shape]; exact b.cols)
        (by rw [Tensor.bt, h3.shape]; exact a.bt.bsh b.bt)
    · exact b

theorem Same.typed {β β' : Idx} {e e' : LExpr K} (hs : Same (fun a a' => SameBatch β β' (den a) (den a')) e e') {S S' : Shp} {r c r' c' : ℕ} (ht : e.Typed S r c) (ht' : e'.Typed S' r' c') :
    r = r' ∧ c = c' := by
  induction hs generalizing r c r' c' with
  | mat h =>
    obtain ⟨_, _, rfl, rfl, _⟩ := ht
    obtain ⟨_, _, rfl, rfl, _⟩ := ht'
    exact ⟨h.rows, h.cols⟩
  | add _ _ he | sub _ _ he | mul _ _ he | div _ _ he => exact he ht.1 ht'.1
  | @matmul ta tb _ _ _ _ _ _ he hf =>
    obtain ⟨k, t1, t2⟩ := ht
    obtain ⟨k', t1', t2'⟩ := ht'
    constructor
    · cases ta
      · exact (he t1 t1').1
      · exact (he t1 t1').2
    · cases tb
      · exact (hf t2 t2').2
      · exact (hf t2 t2').1
  | neg _ he | scale _ he | shift _ he => exact he ht ht'
  | tr _ he => exact (he ht ht').symm
  | inv _ he => exact he ht.2 ht'.2
  | solve _ _ he hf => exact hf ht.2 ht'.2

/-- Values of expressions of the same form agree in a batch element in which the matrices agree. -/
theorem Denotes.batch {S S' : Shp} {β β' : Idx} (hβ : InRange S β) (hβ' : InRange S' β') {e e' : LExpr K} (hs : Same (fun a a' => SameBatch β β' (den a) (den a')) e e')
    {r c : ℕ} {t t' : Tensor K} (ht : e.Typed S r c) (ht' : e'.Typed S' r c) (hn : e.RegularAt β) (h : e.Denotes t) (h' : e'.Denotes t') :
    ∀ i j, i < r → j < c → t.at' β i j = t'.at' β' i j := by
  have trb {a b : Tensor K} {S : Shp} {β : Idx} (hβ : InRange S β) {r c : ℕ} (ha : Rep S r c a a.at') (h : IsTranspose a b) : Rep S c r b b.at' ∧ ∀ i j, i < c → j < r → b.at' β i j = a.at' β j i := by
    rw [h.eq ha.rank]
    have := ha.tr
    exact ⟨Rep.self' this.rank this.rows this.cols this.bt, fun i j hi hj => this.at' β i j hβ hi hj⟩
  induction hs generalizing r c t t' with
  | mat hR =>
    cases h; cases h'
    obtain ⟨w, h2, rfl, rfl, _⟩ := ht
    exact hR.entries
  | add _ _ he hf | sub _ _ he hf | mul _ _ he hf =>
    obtain ⟨x, y, h1, h2, h3⟩ := h
    obtain ⟨x', y', h1', h2', h3'⟩ := h'
    intro i j hi hj
    rw [h3.eq, h3'.eq, ((Denotes.rep h1 ht.1).zipB _ (Denotes.rep h2 ht.2)).at' β i j hβ hi hj, ((Denotes.rep h1' ht'.1).zipB _ (Denotes.rep h2' ht'.2)).at' β' i j hβ' hi hj,
      he ht.1 ht'.1 hn.1 h1 h1' i j hi hj, hf ht.2 ht'.2 hn.2 h2 h2' i j hi hj]
  | div _ _ he hf =>
    obtain ⟨x, y, h1, h2, _, h3⟩ := h
    obtain ⟨x', y', h1', h2', _, h3'⟩ := h'
    intro i j hi hj
    rw [h3.eq, h3'.eq, ((Denotes.rep h1 ht.1).zipB _ (Denotes.rep h2 ht.2)).at' β i j hβ hi hj, ((Denotes.rep h1' ht'.1).zipB _ (Denotes.rep h2' ht'.2)).at' β' i j hβ' hi hj,
      he ht.1 ht'.1 hn.1 h1 h1' i j hi hj, hf ht.2 ht'.2 hn.2 h2 h2' i j hi hj]
  | @matmul ta tb e f e' f' s1 s2 he hf =>
    obtain ⟨x, y, u, v, h1, h2, h3, h4, h5⟩ := h
    obtain ⟨x', y', u', v', h1', h2', h3', h4', h5'⟩ := h'
    obtain ⟨k, t1, t2⟩ := ht
    obtain ⟨k', t1', t2'⟩ := ht'
    obtain rfl : k = k' := by
      cases ta
      · exact (s1.typed t1 t1').2
      · exact (s1.typed t1 t1').1
    have a : Rep S r k u u.at' ∧ Rep S' r k u' u'.at' ∧ ∀ i j, i < r → j < k → u.at' β i j = u'.at' β' i j := by
      cases ta
      · cases h3; cases h3'
        exact ⟨Denotes.rep h1 t1, Denotes.rep h1' t1', he t1 t1' hn.1 h1 h1'⟩
      · have j1 := trb hβ (Denotes.rep h1 t1) h3
        have j2 := trb hβ' (Denotes.rep h1' t1') h3'
        exact ⟨j1.1, j2.1, fun i j hi hj => by rw [j1.2 i j hi hj, j2.2 i j hi hj, he t1 t1' hn.1 h1 h1' j i hj hi]⟩
    have b : Rep S k c v v.at' ∧ Rep S' k c v' v'.at' ∧ ∀ i j, i < k → j < c → v.at' β i j = v'.at' β' i j := by
      cases tb
      · cases h4; cases h4'
        exact ⟨Denotes.rep h2 t2, Denotes.rep h2' t2', hf t2 t2' hn.2 h2 h2'⟩
      · have j1 := trb hβ (Denotes.rep h2 t2) h4
        have j2 := trb hβ' (Denotes.rep h2' t2') h4'
        exact ⟨j1.1, j2.1, fun i j hi hj => by rw [j1.2 i j hi hj, j2.2 i j hi hj, hf t2 t2' hn.2 h2 h2' j i hj hi]⟩
    intro i j hi hj
    rw [h5.eq a.1.rank b.1.rank, h5'.eq a.2.1.rank b.2.1.rank, (a.1.mm b.1).at' β i j hβ hi hj, (a.2.1.mm b.2.1).at' β' i j hβ' hi hj]
    exact Finset.sum_congr rfl fun l hl => by rw [a.2.2 i l hi (Finset.mem_range.1 hl), b.2.2 l j (Finset.mem_range.1 hl) hj]
  | neg _ he | scale _ he | shift _ he =>
    obtain ⟨x, h1, h2⟩ := h
    obtain ⟨x', h1', h2'⟩ := h'
    intro i j hi hj
    rw [h2.eq, h2'.eq, ((Denotes.rep h1 ht).tmap _).at' β i j hβ hi hj, ((Denotes.rep h1' ht').tmap _).at' β' i j hβ' hi hj, he ht ht' hn h1 h1' i j hi hj]
  | tr _ he =>
    obtain ⟨x, h1, h2⟩ := h
    obtain ⟨x', h1', h2'⟩ := h'
    intro i j hi hj
    rw [(trb hβ (Denotes.rep h1 ht) h2).2 i j hi hj, (trb hβ' (Denotes.rep h1' ht') h2').2 i j hi hj, he ht ht' hn h1 h1' j i hj hi]
  | inv _ he =>
    obtain ⟨x, h1, h2⟩ := h
    obtain ⟨x', h1', h2'⟩ := h'
    obtain ⟨rfl, ht⟩ := ht
    obtain ⟨_, ht'⟩ := ht'
    have a := Denotes.rep h1 ht
    have a' := Denotes.rep h1' ht'
    have e1 := (h2.mrep' a.good a.rows).2.2 β hβ
    have e2 := (h2'.mrep' a'.good a'.rows).2.2 β' hβ'
    have e3 : mxOf x β r r = mxOf x' β' r r := by
      ext i j
      exact he ht ht' hn h1 h1' i j i.2 j.2
    intro i j hi hj
    have : mxOf t β r r = mxOf t' β' r r := by
      have e1' := mul_eq_one_comm.1 e1
      rw [e3] at e1'
      calc mxOf t β r r = mxOf t β r r * (mxOf x' β' r r * mxOf t' β' r r) := by rw [e2, Matrix.mul_one]
        _ = mxOf t' β' r r := by rw [← Matrix.mul_assoc, e1', Matrix.one_mul]
    exact congrFun (congrFun this ⟨i, hi⟩) ⟨j, hj⟩
  | solve _ _ he hf =>
    obtain ⟨x, y, h1, h2, h3⟩ := h
    obtain ⟨x', y', h1', h2', h3'⟩ := h'
    have sol {S : Shp} {β : Idx} {r c : ℕ} (hβ : InRange S β) {x y t : Tensor K} (a : Rep S r r x x.at') (b : Rep S r c y y.at') (h : IsSolution x y t ∨ AllZero y ∧ t = y) :
        mxOf x β r r * mxOf t β r c = mxOf y β r c := by
      rcases h with h | ⟨hz, rfl⟩
      · have := (h.mrep a.good b.good).2.2.2 β hβ
        obtain rfl := a.rows
        obtain rfl := b.cols
        exact this
      · have : mxOf t β r c = 0 := by
          ext i j
          show t.get _ = 0
          rw [t.canon]
          split_ifs with h0
          · rfl
          · exact hz _ (inRange_clip _ fun h => h0 h)
        rw [this, Matrix.mul_zero]
    have a := Denotes.rep h1 ht.1
    have e1 := sol hβ a (Denotes.rep h2 ht.2) h3
    have e2 := sol hβ' (Denotes.rep h1' ht'.1) (Denotes.rep h2' ht'.2) h3'
    have e3 : mxOf x β r r = mxOf x' β' r r := by
      ext i j
      exact he ht.1 ht'.1 hn.1 h1 h1' i j i.2 j.2
    have e4 : mxOf y β r c = mxOf y' β' r c := by
      ext i j
      exact hf ht.2 ht'.2 hn.2.1 h2 h2' i j i.2 j.2
    have hd := hn.2.2 x h1
    rw [a.rows] at hd
    have hu := Matrix.nonsing_inv_mul _ (isUnit_iff_ne_zero.2 hd)
    rw [← e3, ← e4, ← e1] at e2
    have := congrArg (fun M => (mxOf x β r r)⁻¹ * M) e2
    simp only [← Matrix.mul_assoc, hu, Matrix.one_mul] at this
    intro i j hi hj
    exact (congrFun (congrFun this ⟨i, hi⟩) ⟨j, hj⟩).symm

end LExpr

/-- C39.  Batch element `β` of the value of an expression depends only on batch element `β` of the matrices in it: if two expressions of the same form, over different batches, have
the same matrices in batch elements `β` and `β'`, then so do their values.  In particular evaluating on a slice of the batch (`S' = []`) gives the slice of the value. -/
theorem C39_expression (c : Cfg K) {lin : LinEnv K} (hl : lin.Lawful) {S S' : Shp} {β β' : Idx} (hβ : InRange S β) (hβ' : InRange S' β') {p q : ℕ} {e e' : LExpr K} {m m' : Mat K}
    (hs : e.Same (fun a a' => SameBatch β β' (den a) (den a')) e') (ht : e.Typed S p q) (ht' : e'.Typed S' p q) (hn : e.RegularAt β)
    (h : LEvals c lin e m) (h' : LEvals c lin e' m') : SameBatch β β' (den m) (den m') := by
  obtain ⟨_, e1, e2, d⟩ := C55_expression c hl ht h.1 h.2
  obtain ⟨_, e1', e2', d'⟩ := C55_expression c hl ht' h'.1 h'.2
  refine ⟨e1.trans e1'.symm, e2.trans e2'.symm, ?_⟩
  rw [e1, e2]
  exact LExpr.Denotes.batch hβ hβ' hs ht ht' hn d d'

/-- C39.  The log-determinant of batch element `β` depends only on batch element `β`. -/
theorem C39_logdet (c : Cfg K) {lin : LinEnv K} (hl : lin.Lawful) {a a' : Mat K} {v v' : Tensor K} (ha : a.Valid) (hd : a.LdDom) (ha' : a'.Valid) (hd' : a'.LdDom)
    (hr : LReturns c lin (fun _ L => L.logdet a) v) (hx : LExact c lin fun _ L => L.logdet a)
    (hr' : LReturns c lin (fun _ L => L.logdet a') v') (hx' : LExact c lin fun _ L => L.logdet a')
    {β β' : Idx} (hβ : InRange (den a).bt β) (hβ' : InRange (den a').bt β') (hs : SameBatch β β' (den a) (den a')) : v.get β = v'.get β' := by
  have h := C22_logdet c hl ha hd hr hx
  have h' := C22_logdet c hl ha' hd' hr' hx'
  have e : ∀ n, n = (den a).rows → mxOf (den a) β n n = mxOf (den a') β' n n := by
    rintro n rfl
    ext i j
    exact hs.entries i j i.2 (by rw [← h.square]; exact j.2)
  rw [(h.entries β hβ).2, (h'.entries β' hβ').2, ← hs.rows, e _ rfl]

/-! ### Example: a batch of two and its second element -/

namespace Ex
/-- Two diagonal matrices. -/
def bD : Mat ℚ := .diag (ofFn [2, 2] fun i => 1 + i 0 + 2 * i 1)
/-- Two dense matrices. -/
def bA : Mat ℚ := .dense (ofFn [2, 2, 2] fun i => i 0 + 3 * i 1 + 5 * i 2)
/-- The second diagonal matrix. -/
def sD : Mat ℚ := .diag (ofFn [2] fun i => 1 + i 0 + 2)
/-- The second dense matrix. -/
def sA : Mat ℚ := .dense (ofFn [2, 2] fun i => i 0 + 3 * i 1 + 5)
def bE (d a : Mat ℚ) : LExpr ℚ := .matmul false true (.inv (.mat d)) (.sub (.mat a) (.solve (.mat d) (.mat a)))


/-- Batch element 1. -/
def b1 : Idx := icons 1 o

theorem bE_typed : (bE bD bA).Typed [2] 2 2 :=
  ⟨2, ⟨rfl, ⟨by decide, Fits.refl _⟩, by decide, rfl, rfl, trivial⟩, ⟨⟨by decide, Fits.refl _⟩, by decide, rfl, rfl, trivial⟩,
    ⟨⟨by decide, Fits.refl _⟩, by decide, rfl, rfl, trivial⟩, ⟨by decide, Fits.refl _⟩, by decide, rfl, rfl, trivial⟩
theorem sE_typed : (bE sD sA).Typed [] 2 2 :=
  ⟨2, ⟨rfl, ⟨by decide, Fits.refl _⟩, by decide, rfl, rfl, trivial⟩, ⟨⟨by decide, Fits.refl _⟩, by decide, rfl, rfl, trivial⟩,
    ⟨⟨by decide, Fits.refl _⟩, by decide, rfl, rfl, trivial⟩, ⟨by decide, Fits.refl _⟩, by decide, rfl, rfl, trivial⟩

theorem sameD : SameBatch b1 o (den bD) (den sD) :=
  ⟨rfl, rfl, fun i j hi hj => (by decide +kernel : ∀ i < 2, ∀ j < 2, (den bD).at' b1 i j = (den sD).at' o i j) i hi j hj⟩
theorem sameA : SameBatch b1 o (den bA) (den sA) :=
  ⟨rfl, rfl, fun i j hi hj => (by decide +kernel : ∀ i < 2, ∀ j < 2, (den bA).at' b1 i j = (den sA).at' o i j) i hi j hj⟩

end Ex

example : ∃ m m', LEvals Ex.cfg Ex.lin (Ex.bE Ex.bD Ex.bA) m ∧ LEvals Ex.cfg Ex.lin (Ex.bE Ex.sD Ex.sA) m' ∧ SameBatch Ex.b1 Ex.o (den m) (den m') := by
  obtain ⟨m, h⟩ := Ex.levals (e := Ex.bE Ex.bD Ex.bA) (n := 9) (m := 9) (by decide +kernel)
  obtain ⟨m', h'⟩ := Ex.levals (e := Ex.bE Ex.sD Ex.sA) (n := 9) (m := 9) (by decide +kernel)
  refine ⟨m, m', h, h', C39_expression Ex.cfg Ex.lin_lawful (S := [2]) (S' := []) ?_ ?_ (.matmul (.inv (.mat Ex.sameD)) (.sub (.mat Ex.sameA) (.solve (.mat Ex.sameD) (.mat Ex.sameA))))
    Ex.bE_typed Ex.sE_typed ⟨trivial, trivial, trivial, trivial, ?_⟩ h h'⟩
  · exact inRange_cons.2 ⟨by decide, fun k => Nat.one_pos⟩
  · exact fun k => Nat.one_pos
  · rintro x rfl
    show (mxOf (den Ex.bD) Ex.b1 2 2).det ≠ 0
    rw [Matrix.det_fin_two]
    decide +kernel

example : ∃ v v', LReturns Ex.cfg Ex.lin (fun _ L => L.logdet Ex.bD) v ∧ LReturns Ex.cfg Ex.lin (fun _ L => L.logdet Ex.sD) v' ∧ v.get Ex.b1 = v'.get Ex.o := by
  obtain ⟨v, h, hx⟩ := Ex.lmeets (LCalls.logdet Ex.bD) (n := 8) (m := 8) (by decide +kernel)
  obtain ⟨v', h', hx'⟩ := Ex.lmeets (LCalls.logdet Ex.sD) (n := 8) (m := 8) (by decide +kernel)
  exact ⟨v, v', h, h', C39_logdet Ex.cfg Ex.lin_lawful (a := Ex.bD) (a' := Ex.sD) ⟨[2], by decide, Fits.refl _⟩ trivial ⟨[], by decide, Fits.refl _⟩ trivial h hx h' hx'
    (inRange_cons.2 ⟨by decide, fun k => Nat.one_pos⟩) (fun k => Nat.one_pos) Ex.sameD⟩

end Verif
