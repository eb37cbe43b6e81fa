/-
C57.  What linear algebra of structured matrices asks of the backend: only factorisations of small arrays.
-/
import Verif.WarnLin2
import Verif.LinQuiet
import Verif.Constr

set_option linter.unusedSectionVars false

namespace Verif

variable {K : Type} [Field K] [LinearOrder K] {α β : Type}

/-! ### Specification -/

/-- At most `s` rows and at most `s` columns. -/
def Tensor.upTo (s : ℕ) (t : Tensor K) : Prop := t.rows ≤ s ∧ t.cols ≤ s

/-- The two backends do the same on matrices with at most `s` rows and columns (right-hand sides may be of any size).
Nothing is said about what they do on larger matrices. -/
structure LinEnv.AgreeUpTo (s : ℕ) (lin lin' : LinEnv K) : Prop where
  inv : ∀ t, t.upTo s → lin.inv t = lin'.inv t
  chol : ∀ t, t.upTo s → lin.chol t = lin'.chol t
  solve : ∀ a b, a.upTo s → lin.solve a b = lin'.solve a b
  trisolve : ∀ lower a b, a.upTo s → lin.trisolve lower a b = lin'.trisolve lower a b
  logdet : ∀ t, t.upTo s → lin.logdet t = lin'.logdet t
  svd : ∀ t, t.upTo s → lin.svd t = lin'.svd t
  sqrt : lin.sqrt = lin'.sqrt
  log : lin.log = lin'.log

/-- The backend that refuses everything larger than `s`. -/
def LinEnv.limit (s : ℕ) (lin : LinEnv K) : LinEnv K where
  inv t := if t.rows ≤ s ∧ t.cols ≤ s then lin.inv t else .error .linalg
  chol t := if t.rows ≤ s ∧ t.cols ≤ s then lin.chol t else .error .linalg
  solve a b := if a.rows ≤ s ∧ a.cols ≤ s then lin.solve a b else .error .linalg
  trisolve lower a b := if a.rows ≤ s ∧ a.cols ≤ s then lin.trisolve lower a b else .error .linalg
  logdet t := if t.rows ≤ s ∧ t.cols ≤ s then lin.logdet t else .error .linalg
  svd t := if t.rows ≤ s ∧ t.cols ≤ s then lin.svd t else .error .linalg
  sqrt := lin.sqrt
  log := lin.log

/-- A numeric array or Dense matrix that holds the matrix (or batch of matrices) `t`. -/
def Mat.Holds (a : Mat K) (t : Tensor K) : Prop := (a = .num t ∨ a = .dense t) ∧ 2 ≤ t.rank

/-- A Diagonal matrix of any size, or an array or Dense matrix with at most `s` rows and columns. -/
def Mat.small (s : ℕ) (a : Mat K) : Prop := (∃ d, a = .diag d) ∨ ∃ t, a.Holds t ∧ t.upTo s

/-- A Diagonal, array or Dense matrix with at most `s` rows and columns. -/
def Mat.middle (s : ℕ) (a : Mat K) : Prop := (∃ d, a = .diag d ∧ 1 ≤ d.rank ∧ d.cols ≤ s) ∨ ∃ t, a.Holds t ∧ t.upTo s

/-- The arrays of the matrix that may have to be factorised have at most `s` rows and columns: arrays and Dense matrices of that size, Diagonal matrices of any size,
Woodbury matrices of any size with at most `s` factors, and Kronecker products of these. -/
def Mat.core (s : ℕ) : Mat K → Prop
  | .wb d l r m => 1 ≤ d.rank ∧ (∃ t, l.Holds t ∧ t.cols ≤ s) ∧ (∃ t, r.Holds t ∧ t.cols ≤ s) ∧ m.middle s
  | .kron l r => l.core s ∧ r.core s
  | a => a.small s

/-- The same for the Cholesky factor: Zero, Constant and Diagonal matrices of any size, LowRank matrices of any size with at most `s` factors, small arrays and Dense
matrices, Kronecker products of these. -/
def Mat.coreC (s : ℕ) : Mat K → Prop
  | .zero .. | .const .. => True
  | .lr _ _ m => m.small s
  | .kron l r => l.coreC s ∧ r.coreC s
  | a => a.small s

/-- The same for the root: as for the Cholesky factor, but without LowRank matrices. -/
def Mat.coreR (s : ℕ) : Mat K → Prop
  | .zero .. | .const .. => True
  | .kron l r => l.coreR s ∧ r.coreR s
  | a => a.small s

/-- The call has the same outcome with the two backends. -/
def LSameBackend (c : Cfg K) (lin lin' : LinEnv K) (f : Ops K → LOps K → E α) : Prop :=
  (∀ r, LReturns c lin f r ↔ LReturns c lin' f r) ∧ ∀ e, LRaises c lin f e ↔ LRaises c lin' f e

/-! ### Equal runs -/

theorem beq {x y : E α} {f g : α → E β} (h : x = y) (hf : ∀ v, y = .ok v → f v = g v) : (x >>= f) = (y >>= g) := by
  subst h
  cases x with
  | error e => rfl
  | ok v => exact hf v rfl

theorem bd_le {a b s : ℕ} (ha : a ≤ s) (hb : b ≤ s) : bd a b ≤ s := by unfold bd; split_ifs <;> omega

theorem LinEnv.AgreeUpTo.symm {s : ℕ} {lin lin' : LinEnv K} (h : lin.AgreeUpTo s lin') : lin'.AgreeUpTo s lin :=
  ⟨fun t ht => (h.inv t ht).symm, fun t ht => (h.chol t ht).symm, fun a b ha => (h.solve a b ha).symm, fun l a b ha => (h.trisolve l a b ha).symm,
    fun t ht => (h.logdet t ht).symm, fun t ht => (h.svd t ht).symm, h.sqrt.symm, h.log.symm⟩

theorem limit_agrees (s : ℕ) (lin : LinEnv K) : lin.AgreeUpTo s (lin.limit s) := by
  refine ⟨fun t ht => ?_, fun t ht => ?_, fun a b ht => ?_, fun l a b ht => ?_, fun t ht => ?_, fun t ht => ?_, rfl, rfl⟩ <;>
    exact (if_pos ht).symm

section
variable {env : Env K} {lin lin' : LinEnv K} {s n : ℕ}

theorem Mat.Holds.convert {a : Mat K} {t : Tensor K} (h : a.Holds t) : convertAM env a = .dense t := by
  obtain ⟨rfl | rfl, h2⟩ := h
  · have : t.rank ≠ 0 := by omega
    simp [convertAM, this, mkDense, upT_of_rank h2]
  · rfl

/-! ### Shapes of products and sums -/

theorem mkDense_of {t : Tensor K} (h : 2 ≤ t.rank) : (mkDense t : Mat K) = .dense t := by rw [mkDense, upT_of_rank h]

theorem trM_holds {tb : Bool} {a : Mat K} {t : Tensor K} (h : a.Holds t) : ∃ a', trM tb a = .ok a' ∧ a'.Holds (trIf tb t) ∧ (a.kind = a'.kind) := by
  have h2 := h.2
  cases tb with
  | false => exact ⟨a, rfl, h, rfl⟩
  | true =>
    have e : nTranspose t = tr t := by simp [nTranspose, h2]
    obtain ⟨rfl | rfl, _⟩ := h
    · exact ⟨_, rfl, ⟨.inl (by rw [e]; rfl), tr_rank2⟩, rfl⟩
    · exact ⟨_, rfl, ⟨.inr (by rw [e, mkDense_of tr_rank2]; rfl), tr_rank2⟩, rfl⟩

theorem mm_holds {ta tb : Bool} {a b x : Mat K} {t u : Tensor K} (ha : a.Holds t) (hb : b.Holds u) (h : (ops env n).matmul ta tb a b = .ok x) :
    ∃ v, x.Holds v ∧ v.rows = (trIf ta t).rows ∧ v.cols = (trIf tb u).cols := by
  have key : ∀ {v : Tensor K}, nMatmul ta tb t u = .ok v → 2 ≤ v.rank ∧ v.rows = (trIf ta t).rows ∧ v.cols = (trIf tb u).cols := by
    intro v hv
    unfold nMatmul at hv
    split_ifs at hv
    cases hv
    exact ⟨by simp [Tensor.rank], rfl, rfl⟩
  by_cases hab : a.isAM = true ∨ b.isAM = true
  · rw [ops_matmul_convert n hab, ha.convert, hb.convert] at h
    cases n with
    | zero => cases h
    | succ n =>
      rw [stepMatmul_am (k := .dense) (k' := .dense) rfl rfl (m := .denseDense) rfl] at h
      obtain ⟨v, hv, h⟩ := bind_ok_iff.1 (show (do return mkDense (← nMatmul ta tb t u) : E (Mat K)) = .ok x from h)
      cases h
      obtain ⟨h1, h2, h3⟩ := key hv
      exact ⟨v, ⟨.inr (mkDense_of h1), h1⟩, h2, h3⟩
  · obtain ⟨rfl | rfl, _⟩ := ha
    · obtain ⟨rfl | rfl, _⟩ := hb
      · cases n with
        | zero => cases h
        | succ n =>
          obtain ⟨v, hv, h⟩ := bind_ok_iff.1 (show (do return .num (← nMatmul ta tb t u) : E (Mat K)) = .ok x from h)
          cases h
          obtain ⟨h1, h2, h3⟩ := key hv
          exact ⟨v, ⟨.inl rfl, h1⟩, h2, h3⟩
      · exact absurd (.inr rfl) hab
    · exact absurd (.inl rfl) hab

theorem rank_zipB {f : K → K → K} {a b : Tensor K} (h : 2 ≤ a.rank ∨ 2 ≤ b.rank) : 2 ≤ (zipB f a b).rank := by
  show 2 ≤ (bsh a.sh b.sh).length
  rw [length_bsh]
  rcases h with h | h
  · exact le_trans h (le_max_left _ _)
  · exact le_trans h (le_max_right _ _)

theorem mul_dense {a b : Tensor K} {x : Mat K} (ha : 2 ≤ a.rank) (h : (ops env n).mul (.dense a) (.dense b) = .ok x) : x = .dense (zipB (· * ·) a b) := by
  cases n with
  | zero => cases h
  | succ n =>
    rw [stepMul_am (k := .dense) (k' := .dense) rfl rfl] at h
    obtain ⟨v, hv, h⟩ := bind_ok_iff.1 (show (do return mkDense (← nMul a b) : E (Mat K)) = .ok x from h)
    cases h
    simp only [nMul, nZip] at hv
    split_ifs at hv
    cases hv
    exact mkDense_of (rank_zipB (.inl ha))

theorem diag_mm_holds {ta tb : Bool} {d : Tensor K} {b x : Mat K} {u : Tensor K} (hd : 1 ≤ d.rank) (hb : b.Holds u) (h : (ops env n).matmul ta tb (.diag d) b = .ok x) :
    ∃ v, x.Holds v ∧ v.cols = (trIf tb u).cols := by
  rw [ops_matmul_convert n (.inl rfl), hb.convert] at h
  cases n with
  | zero => cases h
  | succ n =>
    have hu : (Mat.dense u).Holds u := ⟨.inr rfl, hb.2⟩
    rw [stepMatmul_am (k := .diag) (k' := .dense) rfl rfl (m := .diagAm) rfl] at h
    obtain ⟨_, _, h⟩ := bind_ok_iff.1 h
    obtain ⟨b', hb', h⟩ := bind_ok_iff.1 h
    obtain ⟨b'', e, h1, h2⟩ := trM_holds (tb := tb) hu
    cases e.symm.trans hb'
    have : b' = .dense (trIf tb u) := by
      obtain ⟨rfl | rfl, _⟩ := h1
      · simp [Mat.kind] at h2
      · rfl
    subst this
    have hr : 2 ≤ (expandEnd 1 d).rank := by show 2 ≤ (1 :: d.sh).length; simpa using hd
    rw [mkDense_of hr] at h
    have hx := mul_dense hr h
    exact ⟨_, ⟨.inr hx, rank_zipB (.inl hr)⟩, by show dim (bsh _ _) 0 = dim _ 0; simp⟩

theorem mm_diag_holds {ta tb : Bool} {d : Tensor K} {a x : Mat K} {t : Tensor K} (ha : a.Holds t) (h : (ops env n).matmul ta tb a (.diag d) = .ok x) :
    ∃ v, x.Holds v ∧ v.rows = (trIf ta t).rows := by
  rw [ops_matmul_convert n (.inr rfl), ha.convert] at h
  cases n with
  | zero => cases h
  | succ n =>
    have ht : (Mat.dense t).Holds t := ⟨.inr rfl, ha.2⟩
    rw [stepMatmul_am (k := .dense) (k' := .diag) rfl rfl (m := .amDiag) rfl] at h
    obtain ⟨_, _, h⟩ := bind_ok_iff.1 h
    obtain ⟨a', ha', h⟩ := bind_ok_iff.1 h
    obtain ⟨a'', e, h1, h2⟩ := trM_holds (tb := ta) ht
    cases e.symm.trans ha'
    have hr := h1.2
    have : a' = .dense (trIf ta t) := by
      obtain ⟨rfl | rfl, _⟩ := h1
      · simp [Mat.kind] at h2
      · rfl
    subst this
    have hr' : 2 ≤ (expandRow d).rank := by simp [Tensor.rank]
    rw [mkDense_of hr'] at h
    have hx := mul_dense hr h
    exact ⟨_, ⟨.inr hx, rank_zipB (.inl hr)⟩, by show dim (bsh _ _) 1 = dim _ 1; simp⟩

/-- `rᵀ D l` has as many rows as `r` has columns, and as many columns as `l`. -/
theorem m3_holds {d : Tensor K} {l r x : Mat K} {t u : Tensor K} (hd : 1 ≤ d.rank) (hl : l.Holds t) (hr : r.Holds u)
    (h : matmul3 (ops env n) true false false r (.diag d) l = .ok x) : ∃ v, x.Holds v ∧ v.rows = u.cols ∧ v.cols = t.cols := by
  unfold matmul3 at h
  obtain ⟨_, _, h⟩ := bind_ok_iff.1 h
  obtain ⟨_, _, h⟩ := bind_ok_iff.1 h
  obtain ⟨_, _, h⟩ := bind_ok_iff.1 h
  dsimp only at h
  split_ifs at h
  · obtain ⟨y, hy, h⟩ := bind_ok_iff.1 h
    obtain ⟨v, hv, e⟩ := mm_diag_holds hr hy
    obtain ⟨w, hw, e1, e2⟩ := mm_holds hv hl h
    exact ⟨w, hw, e1.trans e, e2⟩
  · obtain ⟨y, hy, h⟩ := bind_ok_iff.1 h
    obtain ⟨v, hv, e⟩ := diag_mm_holds hd hl hy
    obtain ⟨w, hw, e1, e2⟩ := mm_holds hr hv h
    exact ⟨w, hw, e1, e2.trans e⟩

theorem zipB_upTo {f : K → K → K} {a b : Tensor K} (ha : a.upTo s) (hb : b.upTo s) : (zipB f a b).upTo s :=
  ⟨by show dim (bsh _ _) 1 ≤ s; rw [dim_bsh]; exact bd_le ha.1 hb.1, by show dim (bsh _ _) 0 ≤ s; rw [dim_bsh]; exact bd_le ha.2 hb.2⟩


theorem add_holds {a b x : Mat K} {t u : Tensor K} (ha : a.Holds t) (hb : b.Holds u) (h : (ops env n).add a b = .ok x) : x.Holds (zipB (· + ·) t u) := by
  have hr := rank_zipB (f := (· + ·)) (b := u) (.inl ha.2)
  have key : ∀ {v : Tensor K}, nAdd t u = .ok v → v = zipB (· + ·) t u := by
    intro v hv
    simp only [nAdd, nZip] at hv
    split_ifs at hv
    cases hv
    rfl
  by_cases hab : a.isAM = true ∨ b.isAM = true
  · rw [ops_add_convert n hab, ha.convert, hb.convert] at h
    cases n with
    | zero => cases h
    | succ n =>
      rw [stepAdd_am (k := .dense) (k' := .dense) rfl rfl] at h
      obtain ⟨v, hv, h⟩ := bind_ok_iff.1 (show (do return mkDense (← nAdd t u) : E (Mat K)) = .ok x from h)
      cases h
      rw [key hv]
      exact ⟨.inr (mkDense_of hr), hr⟩
  · obtain ⟨rfl | rfl, _⟩ := ha
    · obtain ⟨rfl | rfl, _⟩ := hb
      · cases n with
        | zero => cases h
        | succ n =>
          obtain ⟨v, hv, h⟩ := bind_ok_iff.1 (show (do return .num (← nAdd t u) : E (Mat K)) = .ok x from h)
          cases h
          rw [key hv]
          exact ⟨.inl rfl, hr⟩
      · exact absurd (.inr rfl) hab
    · exact absurd (.inl rfl) hab

theorem add_diag_holds {d : Tensor K} {b x : Mat K} {u : Tensor K} (hb : b.Holds u) (h : (ops env n).add (.diag d) b = .ok x) : x.Holds (zipB (· + ·) (diagC d) u) := by
  have hr := rank_zipB (f := (· + ·)) (a := diagC d) (.inr hb.2)
  rw [ops_add_convert n (.inl rfl), hb.convert] at h
  cases n with
  | zero => cases h
  | succ n =>
    rw [stepAdd_am (k := .diag) (k' := .dense) rfl rfl] at h
    cases n with
    | zero => cases h
    | succ n =>
      obtain ⟨v, hv, h⟩ := bind_ok_iff.1 (show (do return mkDense (← nAdd (diagC d) u) : E (Mat K)) = .ok x from h)
      cases h
      simp only [nAdd, nZip] at hv
      split_ifs at hv
      cases hv
      exact ⟨.inr (mkDense_of hr), hr⟩

theorem diagC_upTo {d : Tensor K} (h : d.cols ≤ s) : (diagC d).upTo s := ⟨h, h⟩

/-- A sum of two small matrices is small. -/
theorem add_small {a b x : Mat K} {u : Tensor K} (ha : a.middle s) (hb : b.Holds u) (hu : u.upTo s) (h : (ops env n).add a b = .ok x) : ∃ v, x.Holds v ∧ v.upTo s := by
  rcases ha with ⟨d, rfl, _, hd⟩ | ⟨t, ht, hs⟩
  · exact ⟨_, add_diag_holds hb h, zipB_upTo (diagC_upTo hd) hu⟩
  · exact ⟨_, add_holds ht hb h, zipB_upTo hs hu⟩

theorem Mat.middle.small {a : Mat K} (h : a.middle s) : a.small s := h.imp_left fun ⟨d, e, _⟩ => ⟨d, e⟩
theorem Mat.small.core {a : Mat K} (h : a.small s) : a.core s := by
  cases a <;> first | exact h | (obtain ⟨_, h⟩ | ⟨_, ⟨h | h, _⟩, _⟩ := h <;> cases h)
theorem Mat.small.coreC {a : Mat K} (h : a.small s) : a.coreC s := by
  cases a <;> first | exact h | exact True.intro | (obtain ⟨_, h⟩ | ⟨_, ⟨h | h, _⟩, _⟩ := h <;> cases h)

/-! ### Alignment -/

theorem bb_shape {S : Shp} {t u : Tensor K} (h : nBroadcastBatchTo S t = .ok u) : 2 ≤ u.rank ∧ u.rows = t.rows ∧ u.cols = t.cols := by
  unfold nBroadcastBatchTo nBroadcastTo at h
  split_ifs at h
  cases h
  exact ⟨by simp [Tensor.rank, bcast, ofFn], rfl, rfl⟩

/-- The dense form of an aligned array keeps its rows and columns. -/
theorem align_holds {a b : Mat K} {p : Mat K × Mat K} {t y : Tensor K} (ha : a.Holds t) (h : alignBatch2 a b = .ok p) (hy : (ops env n).dense p.1 = .ok y) :
    2 ≤ y.rank ∧ y.rows = t.rows ∧ y.cols = t.cols := by
  obtain ⟨S, _, h⟩ := bind_ok_iff.1 h
  obtain ⟨a', ha', h⟩ := bind_ok_iff.1 h
  obtain ⟨b', _, h⟩ := bind_ok_iff.1 h
  cases h
  cases n with
  | zero => cases hy
  | succ n =>
    obtain ⟨rfl | rfl, _⟩ := ha
    · obtain ⟨u, hu, ha'⟩ := bind_ok_iff.1 (show (do return .num (← nBroadcastBatchTo S t) : E (Mat K)) = .ok a' from ha')
      cases ha'
      cases hy
      exact bb_shape hu
    · obtain ⟨u, hu, ha'⟩ := bind_ok_iff.1 (show (do return mkDense (← nBroadcastBatchTo S t) : E (Mat K)) = .ok a' from ha')
      have := bb_shape hu
      rw [mkDense_of this.1] at ha'
      cases ha'
      cases hy
      exact this

theorem align_holds2 {a b : Mat K} {p : Mat K × Mat K} {t y : Tensor K} (hb : b.Holds t) (h : alignBatch2 a b = .ok p) (hy : (ops env n).dense p.2 = .ok y) :
    2 ≤ y.rank ∧ y.rows = t.rows ∧ y.cols = t.cols := by
  obtain ⟨S, _, h⟩ := bind_ok_iff.1 h
  obtain ⟨a', _, h⟩ := bind_ok_iff.1 h
  obtain ⟨b', hb', h⟩ := bind_ok_iff.1 h
  cases h
  cases n with
  | zero => cases hy
  | succ n =>
    obtain ⟨rfl | rfl, _⟩ := hb
    · obtain ⟨u, hu, hb'⟩ := bind_ok_iff.1 (show (do return .num (← nBroadcastBatchTo S t) : E (Mat K)) = .ok b' from hb')
      cases hb'
      cases hy
      exact bb_shape hu
    · obtain ⟨u, hu, hb'⟩ := bind_ok_iff.1 (show (do return mkDense (← nBroadcastBatchTo S t) : E (Mat K)) = .ok b' from hb')
      have := bb_shape hu
      rw [mkDense_of this.1] at hb'
      cases hb'
      cases hy
      exact this

/-! ### The induction -/

/-- A triangular matrix of the given size. -/
def Tri (s : ℕ) (a : Mat K) : Prop := ∃ t, (a = .lt t ∨ a = .ut t) ∧ 2 ≤ t.rank ∧ t.upTo s

theorem tri_tr {a a' : Mat K} (h : Tri s a) (e : transposeM a = .ok a') : Tri s a' := by
  obtain ⟨t, h, h2, hs⟩ := h
  have et : nTranspose t = tr t := by simp [nTranspose, h2]
  have hs' : (tr t).upTo s := ⟨hs.2, hs.1⟩
  rcases h with rfl | rfl
  · obtain ⟨_, _, e⟩ := bind_ok_iff.1 (show mkUT (nTranspose t) = .ok a' from e)
    cases e
    exact ⟨_, .inr rfl, by rw [et]; exact tr_rank2, by rw [et]; exact hs'⟩
  · obtain ⟨_, _, e⟩ := bind_ok_iff.1 (show mkLT (nTranspose t) = .ok a' from e)
    cases e
    exact ⟨_, .inl rfl, by rw [et]; exact tr_rank2, by rw [et]; exact hs'⟩

/-- Linear algebra with the two backends agrees where it only needs small arrays. -/
structure LAgree (s : ℕ) (L L' : LOps K) : Prop where
  inv : ∀ a, a.core s → L.inv a = L'.inv a
  invD : ∀ d x, L.inv (.diag d) = .ok x → ∃ e, x = .diag e ∧ 1 ≤ e.rank
  invM : ∀ a x, a.middle s → L.inv a = .ok x → x.middle s
  pdInv : ∀ a, a.core s → L.pdInv a = L'.pdInv a
  pdInvM : ∀ a x, a.middle s → L.pdInv a = .ok x → x.middle s
  chol : ∀ a, a.coreC s → L.chol a = L'.chol a
  cholM : ∀ a x, a.kind = some .dense → a.small s → L.chol a = .ok x → Tri s x
  root : ∀ a, a.coreR s → L.root a = L'.root a
  solve : ∀ a b, a.core s ∨ Tri s a → a.kind ≠ some .kron → L.solve a b = L'.solve a b
  solveM : ∀ a b u x, Tri s a → b.Holds u → u.cols ≤ s → L.solve a b = .ok x → ∃ v, x.Holds v ∧ v.upTo s
  cholSolve : ∀ a b, a.kind = some .diag ∨ Tri s a → L.cholSolve a b = L'.cholSolve a b
  cholSolveM : ∀ a b u x, Tri s a → b.Holds u → u.cols ≤ s → L.cholSolve a b = .ok x → ∃ v, x.Holds v ∧ v.upTo s
  logdet : ∀ a, a.core s ∨ a.kind = some .lt ∨ a.kind = some .ut → L.logdet a = L'.logdet a

section
variable {L L' : LOps K}

theorem schur_backend (h : LAgree s L L') {d : Tensor K} {l r m : Mat K} (hw : (Mat.wb d l r m).core s) :
    schurM (ops env n) L d l r m = schurM (ops env n) L' d l r m ∧ ∀ x, schurM (ops env n) L d l r m = .ok x → ∃ v, x.Holds v ∧ v.upTo s := by
  obtain ⟨hd, ⟨t, hl, tl⟩, ⟨u, hr, ur⟩, hm⟩ := hw
  have h1 := h.inv (.diag d) (.inl ⟨d, rfl⟩)
  have h2 := h.inv m hm.small.core
  unfold schurM
  constructor
  · rw [h1, h2]
  · intro w e
    obtain ⟨x, hx, e⟩ := bind_ok_iff.1 e
    obtain ⟨dx, rfl, hdx⟩ := h.invD d x hx
    obtain ⟨y, hy, e'⟩ := bind_ok_iff.1 e
    obtain ⟨z, hz, e'⟩ := bind_ok_iff.1 e'
    obtain ⟨v, hv, e1, e2⟩ := m3_holds hdx hl hr hy
    exact add_small (h.invM m z hm hz) hv ⟨by omega, by omega⟩ e'

theorem pdSchur_backend (h : LAgree s L L') {d : Tensor K} {l r m : Mat K} (hw : (Mat.wb d l r m).core s) :
    pdSchurM (ops env n) L d l r m = pdSchurM (ops env n) L' d l r m ∧ ∀ x, pdSchurM (ops env n) L d l r m = .ok x → ∃ v, x.Holds v ∧ v.upTo s := by
  obtain ⟨hd, ⟨t, hl, tl⟩, ⟨u, hr, ur⟩, hm⟩ := hw
  have h1 := h.inv (.diag d) (.inl ⟨d, rfl⟩)
  have h2 := h.pdInv m hm.small.core
  unfold pdSchurM
  constructor
  · rw [h1, h2]
  · intro w e
    obtain ⟨x, hx, e⟩ := bind_ok_iff.1 e
    obtain ⟨dx, rfl, hdx⟩ := h.invD d x hx
    obtain ⟨y, hy, e'⟩ := bind_ok_iff.1 e
    obtain ⟨z, hz, e'⟩ := bind_ok_iff.1 e'
    obtain ⟨v, hv, e1, e2⟩ := m3_holds hdx hl hr hy
    exact add_small (h.pdInvM m z hm hz) hv ⟨by omega, by omega⟩ e'

theorem holds_core {a : Mat K} {v : Tensor K} (h : a.Holds v) (hs : v.upTo s) : a.core s := Mat.small.core (.inr ⟨v, h, hs⟩)

theorem inv_backend (hg : lin.AgreeUpTo s lin') (h : LAgree s L L') {a : Mat K} (ha : a.core s) :
    stepInv env lin (ops env n) L a = stepInv env lin' (ops env n) L' a := by
  cases a with
  | num t =>
    obtain ⟨_, h⟩ | ⟨t', ⟨h | h, _⟩, hs⟩ := ha <;> cases h
    exact beq (hg.inv t hs) fun _ _ => rfl
  | dense t =>
    obtain ⟨_, h⟩ | ⟨t', ⟨h | h, _⟩, hs⟩ := ha <;> cases h
    exact beq (hg.inv t hs) fun _ _ => rfl
  | diag d => rfl
  | wb d l r m =>
    have hs := schur_backend (env := env) (n := n) h ha
    show invWB .. = invWB ..
    unfold invWB
    refine beq (h.inv (.diag d) (.inl ⟨d, rfl⟩)) fun di _ => beq rfl fun dl _ => beq rfl fun dr _ => beq hs.1 fun x hx => ?_
    obtain ⟨v, hv, hvs⟩ := hs.2 x (hs.1.trans hx)
    exact beq (h.inv x (holds_core hv hvs)) fun _ _ => rfl
  | kron l r => exact beq (h.inv l ha.1) fun _ _ => beq (h.inv r ha.2) fun _ _ => rfl
  | _ => rfl

theorem pdInv_backend (h : LAgree s L L') {a : Mat K} (ha : a.core s) :
    stepPdInv env (ops env n) L a = stepPdInv env (ops env n) L' a := by
  have key : ∀ t : Tensor K, 2 ≤ t.rank → t.upTo s → (do let ch ← L.chol (.dense t); let id ← (ops env n).dense (← eyeM (.dense t)); L.cholSolve ch (.num id))
      = (do let ch ← L'.chol (.dense t); let id ← (ops env n).dense (← eyeM (.dense t)); L'.cholSolve ch (.num id)) := by
    intro t h2 hs
    have hsm : (Mat.dense t).small s := .inr ⟨t, ⟨.inr rfl, h2⟩, hs⟩
    have e := h.chol (.dense t) hsm.coreC
    refine beq e fun x hx => beq rfl fun _ _ => beq rfl fun _ _ => h.cholSolve x _ (.inr (h.cholM _ x rfl hsm (e.trans hx)))
  cases a with
  | num t =>
    obtain ⟨_, h⟩ | ⟨t', ⟨h | h, h2⟩, hs⟩ := ha <;> cases h
    have e : convertAM env (.num t) = .dense t := Mat.Holds.convert ⟨.inl rfl, h2⟩
    show (do let ch ← L.chol (convertAM env (.num t)); _) = (do let ch ← L'.chol (convertAM env (.num t)); _)
    rw [e]
    exact key t h2 hs
  | dense t =>
    obtain ⟨_, h⟩ | ⟨t', ⟨h | h, h2⟩, hs⟩ := ha <;> cases h
    exact key t h2 hs
  | diag d => exact h.inv (.diag d) (.inl ⟨d, rfl⟩)
  | wb d l r m =>
    have hs := pdSchur_backend (env := env) (n := n) h ha
    show pdInvWB .. = pdInvWB ..
    unfold pdInvWB
    refine beq (h.inv (.diag d) (.inl ⟨d, rfl⟩)) fun di _ => beq rfl fun dl _ => beq rfl fun dr _ => beq hs.1 fun x hx => ?_
    obtain ⟨v, hv, hvs⟩ := hs.2 x (hs.1.trans hx)
    exact beq (h.pdInv x (holds_core hv hvs)) fun _ _ => rfl
  | kron l r => exact beq (h.pdInv l ha.1) fun _ _ => beq (h.pdInv r ha.2) fun _ _ => rfl
  | _ => obtain ⟨_, h⟩ | ⟨_, ⟨h | h, _⟩, _⟩ := ha <;> cases h

theorem nSqrt_backend (hg : lin.AgreeUpTo s lin') (t : Tensor K) : nSqrt lin t = nSqrt lin' t := by unfold nSqrt; rw [hg.sqrt]
theorem nLog_backend (hg : lin.AgreeUpTo s lin') (t : Tensor K) : nLog lin t = nLog lin' t := by unfold nLog; rw [hg.log]

theorem chol_backend (hg : lin.AgreeUpTo s lin') (h : LAgree s L L') {a : Mat K} (ha : a.coreC s) :
    stepChol lin (ops env n) L a = stepChol lin' (ops env n) L' a := by
  cases a with
  | num t =>
    obtain ⟨_, h⟩ | ⟨t', ⟨h | h, _⟩, hs⟩ := ha <;> cases h
    exact beq (hg.chol t hs) fun _ _ => rfl
  | dense t =>
    obtain ⟨_, h⟩ | ⟨t', ⟨h | h, _⟩, hs⟩ := ha <;> cases h
    exact beq rfl fun _ _ => beq (hg.chol t hs) fun _ _ => rfl
  | diag d => exact beq rfl fun _ _ => beq (nSqrt_backend hg d) fun _ _ => rfl
  | const t r c => exact beq rfl fun _ _ => beq (nSqrt_backend hg t) fun _ _ => beq (nSqrt_backend hg _) fun _ _ => rfl
  | lr l r m => exact beq rfl fun _ _ => beq (h.chol m (Mat.small.coreC ha)) fun _ _ => rfl
  | kron l r => exact beq (h.chol l ha.1) fun _ _ => beq (h.chol r ha.2) fun _ _ => rfl
  | wb d l r m => obtain ⟨_, h⟩ | ⟨_, ⟨h | h, _⟩, _⟩ := ha <;> cases h
  | _ => rfl

theorem solveTri_backend (hg : lin.AgreeUpTo s lin') (lower : Bool) {t : Tensor K} (h2 : 2 ≤ t.rank) (hs : t.upTo s) (b : Mat K) :
    solveTri lin (ops env n) lower t b = solveTri lin' (ops env n) lower t b := by
  unfold solveTri
  refine beq rfl fun p hp => beq rfl fun y hy => beq rfl fun z _ => beq (hg.trisolve lower y z ?_) fun _ _ => rfl
  obtain ⟨_, e1, e2⟩ := align_holds (a := .num t) ⟨.inl rfl, h2⟩ hp hy
  exact ⟨e1 ▸ hs.1, e2 ▸ hs.2⟩

theorem solveTri_shape (hl : lin.Lawful) (lower : Bool) {t u : Tensor K} (h2 : 2 ≤ t.rank) (hs : t.upTo s) {b x : Mat K} (hb : b.Holds u) (hu : u.cols ≤ s)
    (h : solveTri lin (ops env n) lower t b = .ok x) : ∃ v, x.Holds v ∧ v.upTo s := by
  unfold solveTri at h
  obtain ⟨p, hp, h⟩ := bind_ok_iff.1 h
  obtain ⟨y, hy, h⟩ := bind_ok_iff.1 h
  obtain ⟨z, hz, h⟩ := bind_ok_iff.1 h
  obtain ⟨w, hw, h⟩ := bind_ok_iff.1 h
  cases h
  obtain ⟨_, e1, e2⟩ := align_holds (a := .num t) ⟨.inl rfl, h2⟩ hp hy
  obtain ⟨_, e3, e4⟩ := align_holds2 hb hp hz
  obtain ⟨_, _, sol⟩ := hl.trisolve hw
  have hsh := sol.shape
  have hr : 2 ≤ w.rank := by show 2 ≤ w.sh.length; rw [hsh]; simp
  refine ⟨w, ⟨.inr (mkDense_of hr), hr⟩, ?_, ?_⟩
  · show dim w.sh 1 ≤ s
    rw [hsh]
    show (triPart lower y).rows ≤ s
    show y.rows ≤ s
    rw [e1]; exact hs.1
  · show dim w.sh 0 ≤ s
    rw [hsh]
    show z.cols ≤ s
    rw [e4]; exact hu

theorem solveDense_backend (hg : lin.AgreeUpTo s lin') {a : Mat K} {t : Tensor K} (ha : a.Holds t) (hs : t.upTo s) (b : Mat K) :
    solveDense lin (ops env n) a b = solveDense lin' (ops env n) a b := by
  unfold solveDense
  refine beq rfl fun p hp => beq rfl fun y hy => beq rfl fun z _ => beq (hg.solve y z ?_) fun _ _ => rfl
  obtain ⟨_, e1, e2⟩ := align_holds ha hp hy
  exact ⟨e1 ▸ hs.1, e2 ▸ hs.2⟩

/-- Which method of `B.solve` runs. -/
theorem stepSolve_run (env : Env K) (lin : LinEnv K) (B : Ops K) (L : LOps K) (a b : Mat K) : (∃ s t, a = .num s ∧ b = .num t) ∨
    stepSolve env lin B L a b = (match convertAM env a, convertAM env b with
    | _, .zero bt r c => .ok (.zero bt r c)
    | .diag d, b => do B.matmul false false (← L.inv (.diag d)) b
    | .lt t, b => solveTri lin B true t b
    | .ut t, b => solveTri lin B false t b
    | .wb d l r m, b => do B.matmul false false (← L.inv (.wb d l r m)) b
    | a, b => solveDense lin B a b) := by
  cases a <;> first
    | exact .inr rfl
    | (cases b <;> first | exact .inr rfl | exact .inl ⟨_, _, rfl, rfl⟩)

theorem solve_backend (hg : lin.AgreeUpTo s lin') (h : LAgree s L L') {a b : Mat K} (ha : a.core s ∨ Tri s a) (hk : a.kind ≠ some .kron) :
    stepSolve env lin (ops env n) L a b = stepSolve env lin' (ops env n) L' a b := by
  rcases stepSolve_run env lin (ops env n) L a b with ⟨x, y, rfl, rfl⟩ | e1
  · have hs : x.upTo s := by
      rcases ha with (⟨_, h⟩ | ⟨t', ⟨h | h, _⟩, hs⟩) | ⟨_, h | h, _⟩ <;> cases h
      exact hs
    exact beq (hg.solve x y hs) fun _ _ => rfl
  rcases stepSolve_run env lin' (ops env n) L' a b with ⟨x, y, rfl, rfl⟩ | e2
  · have hs : x.upTo s := by
      rcases ha with (⟨_, h⟩ | ⟨t', ⟨h | h, _⟩, hs⟩) | ⟨_, h | h, _⟩ <;> cases h
      exact hs
    exact beq (hg.solve x y hs) fun _ _ => rfl
  rw [e1, e2]
  clear e1 e2
  have key : ∀ a : Mat K, a.core s ∨ Tri s a → a.kind ≠ some .kron → ∀ b : Mat K, (match a, b with
    | _, .zero bt r c => .ok (.zero bt r c)
    | .diag d, b => do (ops env n).matmul false false (← L.inv (.diag d)) b
    | .lt t, b => solveTri lin (ops env n) true t b
    | .ut t, b => solveTri lin (ops env n) false t b
    | .wb d l r m, b => do (ops env n).matmul false false (← L.inv (.wb d l r m)) b
    | a, b => solveDense lin (ops env n) a b) = (match a, b with
    | _, .zero bt r c => (.ok (.zero bt r c) : E (Mat K))
    | .diag d, b => do (ops env n).matmul false false (← L'.inv (.diag d)) b
    | .lt t, b => solveTri lin' (ops env n) true t b
    | .ut t, b => solveTri lin' (ops env n) false t b
    | .wb d l r m, b => do (ops env n).matmul false false (← L'.inv (.wb d l r m)) b
    | a, b => solveDense lin' (ops env n) a b) := by
    intro a ha hk b
    cases a with
    | diag d =>
      have e := h.inv (.diag d) (.inl ⟨d, rfl⟩)
      cases b <;> first | rfl | exact beq e fun _ _ => rfl
    | lt t =>
      obtain ⟨h2, hs⟩ : 2 ≤ t.rank ∧ t.upTo s := by
        rcases ha with (⟨_, h⟩ | ⟨t', ⟨h | h, _⟩, hs⟩) | ⟨_, h | h, hs⟩ <;> cases h
        exact hs
      cases b <;> first | rfl | exact solveTri_backend hg true h2 hs _
    | ut t =>
      obtain ⟨h2, hs⟩ : 2 ≤ t.rank ∧ t.upTo s := by
        rcases ha with (⟨_, h⟩ | ⟨t', ⟨h | h, _⟩, hs⟩) | ⟨_, h | h, hs⟩ <;> cases h
        exact hs
      cases b <;> first | rfl | exact solveTri_backend hg false h2 hs _
    | wb d l r m =>
      have e := h.inv (.wb d l r m) (ha.elim id fun ⟨_, h, _⟩ => by rcases h with h | h <;> cases h)
      cases b <;> first | rfl | exact beq e fun _ _ => rfl
    | num t =>
      rcases ha with (⟨_, h⟩ | ⟨t', ⟨h | h, h2⟩, hs⟩) | ⟨_, h | h, _⟩ <;> cases h
      cases b <;> first | rfl | exact solveDense_backend hg ⟨.inl rfl, h2⟩ hs _
    | dense t =>
      rcases ha with (⟨_, h⟩ | ⟨t', ⟨h | h, h2⟩, hs⟩) | ⟨_, h | h, _⟩ <;> cases h
      cases b <;> first | rfl | exact solveDense_backend hg ⟨.inr rfl, h2⟩ hs _
    | kron l r => exact absurd rfl hk
    | _ => rcases ha with (⟨_, h⟩ | ⟨t', ⟨h | h, _⟩, hs⟩) | ⟨_, h | h, hs⟩ <;> cases h
  have hc : (convertAM env a).core s ∨ Tri s (convertAM env a) := by
    cases a with
    | num t =>
      rcases ha with (⟨_, h⟩ | ⟨t', ⟨h | h, h2⟩, hs⟩) | ⟨_, h | h, _⟩ <;> cases h
      have e : convertAM env (.num t) = .dense t := Mat.Holds.convert ⟨.inl rfl, h2⟩
      rw [e]
      exact .inl (holds_core ⟨.inr rfl, h2⟩ hs)
    | _ => exact ha
  have hk' : (convertAM env a).kind ≠ some .kron := by
    cases a with
    | num t => intro h; simp only [convertAM] at h; split_ifs at h <;> simp [mkDense, Mat.kind] at h
    | _ => exact hk
  exact key _ hc hk' _


theorem cholSolve_run (env : Env K) (lin : LinEnv K) (L : LOps K) {a : Mat K} (ha : a.kind = some .diag ∨ Tri s a) (b : Mat K) :
    stepCholSolve env lin L a b = cholSolveTri L a (convertAM env b) := by
  rcases ha with h | ⟨t, rfl | rfl, _⟩
  · obtain ⟨d, rfl⟩ := diag_of_kind h
    rfl
  · rfl
  · rfl

theorem cholSolve_backend (h : LAgree s L L') {a : Mat K} (ha : a.kind = some .diag ∨ Tri s a) (b : Mat K) :
    stepCholSolve env lin L a b = stepCholSolve env lin' L' a b := by
  rw [cholSolve_run env lin L ha, cholSolve_run env lin' L' ha]
  have hk : a.kind ≠ some .kron := by
    rcases ha with h | ⟨t, rfl | rfl, _⟩
    · rw [h]; decide
    · simp [Mat.kind]
    · simp [Mat.kind]
  have hc : ∀ {a : Mat K}, a.kind = some .diag ∨ Tri s a → a.core s ∨ Tri s a := by
    rintro a (h | h)
    · obtain ⟨d, rfl⟩ := diag_of_kind h
      exact .inl (.inl ⟨d, rfl⟩)
    · exact .inr h
  unfold cholSolveTri
  refine beq (h.solve a _ (hc ha) hk) fun x _ => beq rfl fun a' ha' => h.solve a' x (hc ?_) ?_
  · rcases ha with h | h
    · obtain ⟨d, rfl⟩ := diag_of_kind h
      cases ha'
      exact .inl rfl
    · exact .inr (tri_tr h ha')
  · rcases ha with h | h
    · obtain ⟨d, rfl⟩ := diag_of_kind h
      cases ha'
      simp [Mat.kind]
    · obtain ⟨t, rfl | rfl, _⟩ := tri_tr h ha' <;> simp [Mat.kind]

theorem cholSolve_shape (h : LAgree s L L') {a b x : Mat K} {u : Tensor K} (ha : Tri s a) (hb : b.Holds u) (hu : u.cols ≤ s) (e : stepCholSolve env lin L a b = .ok x) :
    ∃ v, x.Holds v ∧ v.upTo s := by
  rw [cholSolve_run env lin L (.inr ha), hb.convert] at e
  obtain ⟨y, hy, e⟩ := bind_ok_iff.1 e
  obtain ⟨a', ha', e⟩ := bind_ok_iff.1 e
  obtain ⟨v, hv, hs⟩ := h.solveM a _ u y ha ⟨.inr rfl, hb.2⟩ hu hy
  exact h.solveM a' y v x (tri_tr ha ha') hv hs.2 e

theorem solve_shape (hl : lin.Lawful) {a b x : Mat K} {u : Tensor K} (ha : Tri s a) (hb : b.Holds u) (hu : u.cols ≤ s) (e : stepSolve env lin (ops env n) L a b = .ok x) :
    ∃ v, x.Holds v ∧ v.upTo s := by
  have hb' : (Mat.dense u).Holds u := ⟨.inr rfl, hb.2⟩
  rcases stepSolve_run env lin (ops env n) L a b with ⟨_, _, rfl, _⟩ | e1
  · obtain ⟨_, h | h, _⟩ := ha <;> cases h
  rw [e1, hb.convert] at e
  obtain ⟨t, rfl | rfl, h2, hs⟩ := ha
  · exact solveTri_shape hl true h2 hs hb' hu e
  · exact solveTri_shape hl false h2 hs hb' hu e

theorem logdet_backend (hg : lin.AgreeUpTo s lin') (h : LAgree s L L') {a : Mat K} (ha : a.core s ∨ a.kind = some .lt ∨ a.kind = some .ut) :
    stepLogdet lin (ops env n) L a = stepLogdet lin' (ops env n) L' a := by
  have tri : ∀ x : Mat K, logdetTri lin (ops env n) x = logdetTri lin' (ops env n) x := fun x => beq rfl fun y _ => beq (nLog_backend hg y) fun _ _ => rfl
  cases a with
  | num t =>
    rcases ha with (⟨_, h⟩ | ⟨t', ⟨h | h, h2⟩, hs⟩) | h | h <;> cases h
    exact hg.logdet t hs
  | dense t =>
    rcases ha with (⟨_, h⟩ | ⟨t', ⟨h | h, h2⟩, hs⟩) | h | h <;> cases h
    have hsm : (Mat.dense t).small s := .inr ⟨t, ⟨.inr rfl, h2⟩, hs⟩
    have e := h.chol (.dense t) hsm.coreC
    refine beq e fun x hx => beq (h.logdet x (.inr ?_)) fun _ _ => rfl
    obtain ⟨u, rfl | rfl, _⟩ := h.cholM _ x rfl hsm (e.trans hx)
    · exact .inl rfl
    · exact .inr rfl
  | diag d => exact tri _
  | lt t => exact tri _
  | ut t => exact tri _
  | wb d l r m =>
    have hw : (Mat.wb d l r m).core s := ha.elim id fun h => by rcases h with h | h <;> simp [Mat.kind] at h
    have hs := pdSchur_backend (env := env) (n := n) h hw
    refine beq (h.logdet (.diag d) (.inl (.inl ⟨d, rfl⟩))) fun _ _ => beq (h.logdet m (.inl hw.2.2.2.small.core)) fun _ _ => beq hs.1 fun x hx => ?_
    obtain ⟨v, hv, hvs⟩ := hs.2 x (hs.1.trans hx)
    exact beq (h.logdet x (.inl (holds_core hv hvs))) fun _ _ => rfl
  | kron l r =>
    have hw : l.core s ∧ r.core s := ha.elim id fun h => by rcases h with h | h <;> simp [Mat.kind] at h
    exact beq rfl fun _ _ => beq rfl fun _ _ => beq rfl fun _ _ => beq rfl fun _ _ => beq (h.logdet l (.inl hw.1)) fun _ _ => beq rfl fun _ _ =>
      beq (h.logdet r (.inl hw.2)) fun _ _ => rfl
  | _ => rcases ha with (⟨_, h⟩ | ⟨t', ⟨h | h, h2⟩, hs⟩) | h | h <;> cases h

theorem root_backend (hg : lin.AgreeUpTo s lin') (h : LAgree s L L') {a : Mat K} (ha : a.coreR s) :
    stepRoot lin (ops env n) L a = stepRoot lin' (ops env n) L' a := by
  cases a with
  | num t =>
    obtain ⟨_, h⟩ | ⟨t', ⟨h | h, _⟩, hs⟩ := ha <;> cases h
    exact beq rfl fun _ _ => beq (hg.svd t hs) fun us _ => beq (nSqrt_backend hg us.2) fun _ _ => rfl
  | dense t =>
    obtain ⟨_, h⟩ | ⟨t', ⟨h | h, h2⟩, hs⟩ := ha <;> cases h
    exact beq (h.root (.num t) (.inr ⟨t, ⟨.inl rfl, h2⟩, hs⟩)) fun _ _ => rfl
  | zero bt r c => rfl
  | diag d => exact beq rfl fun _ _ => h.chol (.diag d) (.inl ⟨d, rfl⟩)
  | const t r c => exact beq rfl fun _ _ => h.chol (.const t r c) True.intro
  | kron l r => exact beq (h.root l ha.1) fun _ _ => beq (h.root r ha.2) fun _ _ => rfl
  | _ => obtain ⟨_, h⟩ | ⟨_, ⟨h | h, _⟩, _⟩ := ha <;> cases h

theorem nDiv_shape {a b r : Tensor K} (h : nDiv a b = .ok r) : r.sh = bsh a.sh b.sh := by
  unfold nDiv at h
  split_ifs at h
  cases h
  rfl

theorem invD_shape {d : Tensor K} {x : Mat K} (h : (do mkDiag (← nDiv (scalarT 1) d)) = .ok x) : ∃ e, x = .diag e ∧ 1 ≤ e.rank ∧ e.cols = d.cols := by
  obtain ⟨e, he, h⟩ := bind_ok_iff.1 h
  obtain ⟨_, h1, h⟩ := bind_ok_iff.1 h
  cases h
  refine ⟨e, rfl, by simpa using h1, ?_⟩
  show dim e.sh 0 = dim d.sh 0
  rw [nDiv_shape he]
  simp

theorem upTo_of_sh {a r : Tensor K} (h : r.sh = a.sh) (hs : a.upTo s) : r.upTo s := ⟨by rw [rows_of_sh h]; exact hs.1, by rw [cols_of_sh h]; exact hs.2⟩

theorem eye_dense {t id : Tensor K} {x : Mat K} (hx : eyeM (.dense t) = .ok x) (h : (ops env n).dense x = .ok id) : 2 ≤ id.rank ∧ id.cols = t.rows := by
  obtain ⟨_, _, hx⟩ := bind_ok_iff.1 hx
  obtain ⟨p, hp, hx⟩ := bind_ok_iff.1 hx
  rw [fillDiag_one] at hx
  cases hx
  have ep : p.1 = t.rows := by
    have : shapeMatrix (.dense t : Mat K) = .ok (t.rows, t.cols) := by simp [shapeMatrix, shp]
    rw [this] at hp
    cases hp
    rfl
  cases n with
  | zero => cases h
  | succ n =>
    cases h
    exact ⟨by simp [Tensor.rank, diagC], ep⟩

theorem lops_backend (hl : lin.Lawful) (hg : lin.AgreeUpTo s lin') (n m : ℕ) : LAgree s (lops env lin (ops env n) m) (lops env lin' (ops env n) m) := by
  induction m with
  | zero => 
    refine ⟨fun _ _ => rfl, ?_, ?_, fun _ _ => rfl, ?_, fun _ _ => rfl, ?_, fun _ _ => rfl, fun _ _ _ _ => rfl, ?_, fun _ _ _ => rfl, ?_, fun _ _ => rfl⟩
    · intro _ _ h; cases h
    · intro _ _ _ h; cases h
    · intro _ _ _ h; cases h
    · intro _ _ _ _ h; cases h
    · intro _ _ _ _ _ _ _ h; cases h
    · intro _ _ _ _ _ _ _ h; cases h
  | succ m ih =>
    refine ⟨fun a ha => inv_backend hg ih ha, fun d x h => ?_, fun a x ha h => ?_, fun a ha => pdInv_backend ih ha, fun a x ha h => ?_, fun a ha => chol_backend hg ih ha,
      fun a x hk ha h => ?_, fun a ha => root_backend hg ih ha, fun a b ha hk => solve_backend hg ih ha hk, fun a b u x ha hb hu h => solve_shape hl ha hb hu h,
      fun a b ha => cholSolve_backend ih ha b, fun a b u x ha hb hu h => cholSolve_shape ih ha hb hu h, fun a ha => logdet_backend hg ih ha⟩
    · obtain ⟨e, he, h1, _⟩ := invD_shape h
      exact ⟨e, he, h1⟩
    · rcases ha with ⟨d, rfl, h1, hd⟩ | ⟨t, ⟨rfl | rfl, h2⟩, hs⟩
      · obtain ⟨e, he, h1, h2⟩ := invD_shape h
        exact .inl ⟨e, he, h1, h2 ▸ hd⟩
      · obtain ⟨r, hr, h⟩ := bind_ok_iff.1 (show (do return Mat.num (← lin.inv t) : E (Mat K)) = .ok x from h)
        cases h
        have := (hl.inv hr).2.2.1
        exact .inr ⟨r, ⟨.inl rfl, by rw [rank_of_sh this]; exact h2⟩, upTo_of_sh this hs⟩
      · obtain ⟨r, hr, h⟩ := bind_ok_iff.1 (show (do return mkDense (← lin.inv t) : E (Mat K)) = .ok x from h)
        cases h
        have := (hl.inv hr).2.2.1
        have h3 : 2 ≤ r.rank := by rw [rank_of_sh this]; exact h2
        exact .inr ⟨r, ⟨.inr (mkDense_of h3), h3⟩, upTo_of_sh this hs⟩
    · have key : ∀ t : Tensor K, 2 ≤ t.rank → t.upTo s → (do let ch ← (lops env lin (ops env n) m).chol (.dense t); let id ← (ops env n).dense (← eyeM (.dense t)); (lops env lin (ops env n) m).cholSolve ch (.num id)) = .ok x →
        x.middle s := by
        intro t h2 hs h
        have hsm : (Mat.dense t).small s := .inr ⟨t, ⟨.inr rfl, h2⟩, hs⟩
        obtain ⟨c, hc, h⟩ := bind_ok_iff.1 h
        obtain ⟨i, hi, h⟩ := bind_ok_iff.1 h
        obtain ⟨id, hid, h⟩ := bind_ok_iff.1 h
        obtain ⟨e1, e2⟩ := eye_dense hi hid
        exact .inr (ih.cholSolveM c _ id x (ih.cholM _ c rfl hsm hc) ⟨.inl rfl, e1⟩ (by rw [e2]; exact hs.1) h)
      rcases ha with ⟨d, rfl, h1, hd⟩ | ⟨t, ⟨rfl | rfl, h2⟩, hs⟩
      · exact ih.invM _ x (.inl ⟨d, rfl, h1, hd⟩) h
      · have e : convertAM env (.num t) = .dense t := Mat.Holds.convert ⟨.inl rfl, h2⟩
        change (do let ch ← (lops env lin (ops env n) m).chol (convertAM env (.num t)); _) = Except.ok x at h
        rw [e] at h
        exact key t h2 hs h
      · exact key t h2 hs h
    · obtain ⟨_, e⟩ | ⟨t, ⟨e | e, h2⟩, hs⟩ := ha
      · subst e; simp [Mat.kind] at hk
      · subst e; simp [Mat.kind] at hk
      · subst e
        obtain ⟨_, _, h⟩ := bind_ok_iff.1 (show (do assertSquare (.dense t); mkLT (← lin.chol t)) = .ok x from h)
        obtain ⟨r, hr, h⟩ := bind_ok_iff.1 h
        obtain ⟨_, h3, h⟩ := bind_ok_iff.1 h
        cases h
        exact ⟨r, .inl rfl, by simpa using h3, upTo_of_sh (hl.chol hr).2.2.1 hs⟩

end
end

/-! ### The theorems -/

section
variable {c : Cfg K} {lin lin' : LinEnv K} {s : ℕ}

theorem LSameBackend.of {f : Ops K → LOps K → E α} (h : ∀ n m, f (ops c.code n) (lops c.code lin (ops c.code n) m) = f (ops c.code n) (lops c.code lin' (ops c.code n) m)) :
    LSameBackend c lin lin' f := by
  constructor
  · intro r
    constructor
    · rintro ⟨m, n, e⟩; exact ⟨m, n, (h n m).symm.trans e⟩
    · rintro ⟨m, n, e⟩; exact ⟨m, n, (h n m).trans e⟩
  · intro e
    constructor
    · rintro ⟨m, hr, n, e⟩; exact ⟨m, hr, n, (h n m).symm.trans e⟩
    · rintro ⟨m, hr, n, e⟩; exact ⟨m, hr, n, (h n m).trans e⟩

/-- C57.  The backend that refuses all larger matrices is one of those that do the same on small ones; so wherever a theorem below applies, the call also works with it. -/
theorem C57_limit (s : ℕ) (lin : LinEnv K) : lin.AgreeUpTo s (lin.limit s) ∧ ∀ t : Tensor K, ¬ t.upTo s → ∀ r, (lin.limit s).inv t ≠ .ok r ∧ (lin.limit s).chol t ≠ .ok r ∧
    (lin.limit s).logdet t ≠ .ok r ∧ ∀ b lower, (lin.limit s).solve t b ≠ .ok r ∧ (lin.limit s).trisolve lower t b ≠ .ok r := by
  refine ⟨limit_agrees s lin, fun t ht r => ⟨?_, ?_, ?_, fun b lower => ⟨?_, ?_⟩⟩⟩ <;>
    (intro h; simp only [LinEnv.limit] at h; rw [if_neg (show ¬ (t.rows ≤ s ∧ t.cols ≤ s) from ht)] at h; cases h)

variable (hl : lin.Lawful) (hg : lin.AgreeUpTo s lin')
include hl hg

/-- C57.  Inverse: a Diagonal matrix is inverted without the backend, a Woodbury matrix of any size with the backend's help on matrices no larger than the number of factors,
a Kronecker product with help on the factors only. -/
theorem C57_inv {a : Mat K} (ha : a.core s) : LSameBackend c lin lin' (fun _ L => L.inv a) := .of fun n m => (lops_backend hl hg n m).inv a ha

theorem C57_pdinv {a : Mat K} (ha : a.core s) : LSameBackend c lin lin' (fun _ L => L.pdInv a) := .of fun n m => (lops_backend hl hg n m).pdInv a ha

/-- C57.  Log-determinant: also for triangular matrices of any size. -/
theorem C57_logdet {a : Mat K} (ha : a.core s ∨ a.kind = some .lt ∨ a.kind = some .ut) : LSameBackend c lin lin' (fun _ L => L.logdet a) :=
  .of fun n m => (lops_backend hl hg n m).logdet a ha

/-- C57.  Solving for any right-hand side. -/
theorem C57_solve {a : Mat K} (ha : a.core s) (hk : ∀ l r, a ≠ .kron l r) (b : Mat K) : LSameBackend c lin lin' (fun _ L => L.solve a b) := by
  refine .of fun n m => (lops_backend hl hg n m).solve a b (.inl ha) ?_
  cases a <;> first | exact absurd rfl (hk _ _) | simp [Mat.kind]

/-- C57.  Cholesky factor. -/
theorem C57_cholesky {a : Mat K} (ha : a.coreC s) : LSameBackend c lin lin' (fun _ L => L.chol a) := .of fun n m => (lops_backend hl hg n m).chol a ha

/-- C57.  Root. -/
theorem C57_root {a : Mat K} (ha : a.coreR s) : LSameBackend c lin lin' (fun _ L => L.root a) := .of fun n m => (lops_backend hl hg n m).root a ha

theorem chol_then {a : Mat K} (ha : a.kind = some .dense ∨ a.kind = some .diag) (hs : a.small s) (n m : ℕ) (F : Mat K → LOps K → E α)
    (hF : ∀ x : Mat K, (∀ b, (lops c.code lin (ops c.code n) m).solve x b = (lops c.code lin' (ops c.code n) m).solve x b) →
      F x (lops c.code lin (ops c.code n) m) = F x (lops c.code lin' (ops c.code n) m)) :
    ((lops c.code lin (ops c.code n) m).chol a >>= fun x => F x (lops c.code lin (ops c.code n) m)) =
      ((lops c.code lin' (ops c.code n) m).chol a >>= fun x => F x (lops c.code lin' (ops c.code n) m)) := by
  have h := lops_backend (env := c.code) hl hg n m
  have e := h.chol a hs.coreC
  refine beq e fun x hx => hF x fun b => ?_
  rcases ha with hd | hd
  · have := h.cholM a x hd hs (e.trans hx)
    refine h.solve x b (.inr this) ?_
    obtain ⟨t, rfl | rfl, _⟩ := this <;> simp [Mat.kind]
  · have hk := (c.lkinds lin' n m).chol a (by rw [hd]; decide) x hx
    rw [hd] at hk
    have hk : x.kind = some .diag := hk
    obtain ⟨d, rfl⟩ := diag_of_kind hk
    exact h.solve _ b (.inl (.inl ⟨d, rfl⟩)) (by simp [Mat.kind])

/-- C57.  Quadratic forms `bᵀ a⁻¹ c`, for any `b` and `c`. -/
theorem C57_iqf {same : Bool} {a : Mat K} (ha : (∃ d l r m, a = .wb d l r m) ∨ a.kind = some .dense ∨ a.kind = some .diag) (hs : a.core s) (x y : Mat K) :
    LSameBackend c lin lin' (fun B L => iqfM B L same a x y) := by
  refine .of fun n m => ?_
  have h := lops_backend (env := c.code) hl hg n m
  rcases ha with ⟨d, l, r, k, rfl⟩ | ha
  · exact beq (h.pdInv _ hs) fun _ _ => rfl
  · have hs' : a.small s := by rcases ha with h | h <;> cases a <;> simp only [Mat.kind, Option.some.injEq, reduceCtorEq] at h <;> exact hs
    have key := chol_then (c := c) hl hg ha hs' n m (fun ch L => do
      let cb ← L.solve ch x
      let cc ← if same then pure cb else L.solve ch y
      (ops c.code n).matmul true false cb cc) fun ch hch => by
        refine beq (hch x) fun cb _ => ?_
        cases same
        · exact beq (hch y) fun _ _ => rfl
        · rfl
    rcases ha with h | h <;> cases a <;> simp only [Mat.kind, Option.some.injEq, reduceCtorEq] at h <;> exact key

theorem C57_iqf_diag {same : Bool} {a : Mat K} (ha : (∃ d l r m, a = .wb d l r m) ∨ a.kind = some .dense ∨ a.kind = some .diag) (hs : a.core s) (x y : Mat K) :
    LSameBackend c lin lin' (fun B L => iqfDiagM B L same a x y) := by
  refine .of fun n m => ?_
  have h := lops_backend (env := c.code) hl hg n m
  rcases ha with ⟨d, l, r, k, rfl⟩ | ha
  · exact beq (h.pdInv _ hs) fun _ _ => rfl
  · have hs' : a.small s := by rcases ha with h | h <;> cases a <;> simp only [Mat.kind, Option.some.injEq, reduceCtorEq] at h <;> exact hs
    have key := chol_then (c := c) hl hg ha hs' n m (fun ch L => do
      let cb ← L.solve ch x
      let cc ← if same then pure cb else L.solve ch y
      matmulDiag (ops c.code n) true false cb cc) fun ch hch => by
        refine beq (hch x) fun cb _ => ?_
        cases same
        · exact beq (hch y) fun _ _ => rfl
        · rfl
    rcases ha with h | h <;> cases a <;> simp only [Mat.kind, Option.some.injEq, reduceCtorEq] at h <;> exact key

/-- C57.  The ratio `tr(a b⁻¹)` for a Woodbury matrix `b`, and any `a`. -/
theorem C57_ratio {d : Tensor K} {l r k : Mat K} (hs : (Mat.wb d l r k).core s) (a : Mat K) : LSameBackend c lin lin' (fun B L => ratioM B L a (.wb d l r k)) := by
  refine .of fun n m => ?_
  have h := (lops_backend (env := c.code) hl hg n m).pdInv _ hs
  cases a <;> exact beq h fun _ _ => rfl

/-- C57.  Sampling from a Woodbury matrix: only its middle is factorised. -/
theorem C57_sample {σ : Type} (randn : σ → Shp → σ × Tensor K) (num : ℕ) (st : σ) {a : Mat K} (ha : (∃ d l r k, a = .wb d l r k ∧ k.small s) ∨ (a.coreC s ∧ ∀ d l r k, a ≠ .wb d l r k)) :
    LSameBackend c lin lin' (fun B L => sampleM B L randn num st a) := by
  refine .of fun n m => ?_
  have h := lops_backend (env := c.code) hl hg n m
  rcases ha with ⟨d, l, r, k, rfl, hk⟩ | ⟨ha, hw⟩
  · have e1 := h.chol (.diag d) (.inl ⟨d, rfl⟩)
    have e2 := h.chol (.lr l r k) hk
    simp only [sampleM, e1, e2]
  · have e := h.chol a ha
    cases a <;> first | exact absurd rfl (hw _ _ _ _) | simp only [sampleM, e]

end

/-! ### Where the backend does get a large matrix -/

/-- Did a run stop with the backend's refusal? -/
def Ex.refused : E α → Bool
  | .error .linalg => true
  | _ => false

theorem Ex.refused_iff {x : E α} (h : Ex.refused x = true) : x = .error .linalg := by
  unfold Ex.refused at h
  split at h
  · rfl
  · cases h

/-- `[3, 9] + [1, 0] [1, 0]ᵀ`, a Woodbury matrix with one factor. -/
def Ex.P4 : Mat ℚ := .wb (Ex.v [3, 9]) (.num (Ex.m 2 1 [1, 0])) (.num (Ex.m 2 1 [1, 0])) (.num (Ex.m 1 1 [1]))

theorem Ex.P4_core : Ex.P4.core 1 :=
  ⟨by decide, ⟨_, ⟨.inl rfl, by decide⟩, by decide⟩, ⟨_, ⟨.inl rfl, by decide⟩, by decide⟩, .inr ⟨_, ⟨.inl rfl, by decide⟩, by decide, by decide⟩⟩
theorem Ex.P2_core : Ex.P2.core 1 :=
  ⟨by decide, ⟨_, ⟨.inl rfl, by decide⟩, by decide⟩, ⟨_, ⟨.inl rfl, by decide⟩, by decide⟩, .inr ⟨_, ⟨.inl rfl, by decide⟩, by decide, by decide⟩⟩

/-- C57, finding.  The Cholesky factor and the root of a Woodbury matrix are not computed from its factors: the whole matrix goes to the backend. -/
theorem C57_cholesky_woodbury_finding : ∃ a : Mat ℚ, a.core 1 ∧ (∃ r, LReturns Ex.cfg Ex.lin (fun _ L => L.chol a) r) ∧ LRaises Ex.cfg (Ex.lin.limit 1) (fun _ L => L.chol a) .linalg ∧
    LRaises Ex.cfg (Ex.lin.limit 1) (fun _ L => L.root a) .linalg := by
  obtain ⟨r, h, _⟩ := Ex.lmeets (LCalls.chol Ex.P4) (n := 8) (m := 8) (by decide +kernel)
  exact ⟨Ex.P4, Ex.P4_core, ⟨r, h⟩, ⟨8, by decide, 8, Ex.refused_iff (by decide +kernel)⟩, ⟨8, by decide, 8, Ex.refused_iff (by decide +kernel)⟩⟩

/-! ### The hypotheses can be met -/

/-- A Woodbury matrix inverted with a backend that knows 1 × 1 matrices only. -/
example : ∃ r, LReturns Ex.cfg (Ex.lin.limit 1) (fun _ L => L.inv Ex.P2) r := by
  obtain ⟨r, h, _⟩ := Ex.lmeets (LCalls.inv Ex.P2) (n := 8) (m := 8) (by decide +kernel)
  exact ⟨r, ((C57_inv Ex.lin_lawful (C57_limit 1 Ex.lin).1 Ex.P2_core).1 r).1 h⟩
example : ∃ r, LReturns Ex.cfg (Ex.lin.limit 1) (fun _ L => L.pdInv Ex.P2) r := by
  obtain ⟨r, h, _⟩ := Ex.lmeets (LCalls.pdInv Ex.P2) (n := 8) (m := 8) (by decide +kernel)
  exact ⟨r, ((C57_pdinv Ex.lin_lawful (C57_limit 1 Ex.lin).1 Ex.P2_core).1 r).1 h⟩
example : ∃ r, LReturns Ex.cfg (Ex.lin.limit 1) (fun _ L => L.logdet Ex.P2) r := by
  obtain ⟨r, h, _⟩ := Ex.lmeets (LCalls.logdet Ex.P2) (n := 8) (m := 8) (by decide +kernel)
  exact ⟨r, ((C57_logdet Ex.lin_lawful (C57_limit 1 Ex.lin).1 (.inl Ex.P2_core)).1 r).1 h⟩
example : ∃ r, LReturns Ex.cfg (Ex.lin.limit 1) (fun _ L => L.solve Ex.P2 Ex.B2) r := by
  obtain ⟨r, h, _⟩ := Ex.lmeets (LCalls.solve Ex.P2 Ex.B2) (n := 8) (m := 8) (by decide +kernel)
  exact ⟨r, ((C57_solve Ex.lin_lawful (C57_limit 1 Ex.lin).1 Ex.P2_core (by intro l r h; cases h) Ex.B2).1 r).1 h⟩
example : ∃ r, LReturns Ex.cfg (Ex.lin.limit 1) (fun B L => iqfM B L true Ex.P2 Ex.B2 Ex.B2) r := by
  obtain ⟨r, h, _⟩ := Ex.lmeets (LCalls.iqf true Ex.P2 Ex.B2 Ex.B2) (n := 8) (m := 8) (by decide +kernel)
  exact ⟨r, ((C57_iqf Ex.lin_lawful (C57_limit 1 Ex.lin).1 (.inl ⟨_, _, _, _, rfl⟩) Ex.P2_core Ex.B2 Ex.B2).1 r).1 h⟩
/-- The 4 × 4 Kronecker product of a 2 × 2 and a Diagonal matrix: 2 × 2 is enough. -/
example : ∃ r, LReturns Ex.cfg (Ex.lin.limit 2) (fun _ L => L.chol Ex.K4) r := by
  obtain ⟨r, h, _⟩ := Ex.lmeets (LCalls.chol Ex.K4) (n := 8) (m := 8) (by decide +kernel)
  exact ⟨r, ((C57_cholesky Ex.lin_lawful (C57_limit 2 Ex.lin).1 (a := Ex.K4) ⟨.inr ⟨_, ⟨.inr rfl, by decide⟩, by decide, by decide⟩, .inl ⟨_, rfl⟩⟩).1 r).1 h⟩
example : ∃ r, LReturns Ex.cfg (Ex.lin.limit 1) (fun B L => ratioM B L (.diag (Ex.v [4, 9])) Ex.P2) r := by
  obtain ⟨r, h, _⟩ := Ex.lmeets (LCalls.ratio (.diag (Ex.v [4, 9])) Ex.P2) (n := 8) (m := 8) (by decide +kernel)
  exact ⟨r, ((C57_ratio Ex.lin_lawful (C57_limit 1 Ex.lin).1 Ex.P2_core _).1 r).1 h⟩
/-- Diagonal matrices need no backend at all. -/
example : ∃ r, LReturns Ex.cfg (Ex.lin.limit 0) (fun _ L => L.root (.diag (Ex.v [4, 9]))) r := by
  obtain ⟨r, h, _⟩ := Ex.lmeets (LCalls.root (.diag (Ex.v [4, 9]))) (n := 8) (m := 8) (by decide +kernel)
  exact ⟨r, ((C57_root Ex.lin_lawful (C57_limit 0 Ex.lin).1 (a := .diag (Ex.v [4, 9])) (.inl ⟨_, rfl⟩)).1 r).1 h⟩

end Verif
