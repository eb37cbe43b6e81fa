/-
Success: the operations return on operands that meet stated conditions, and the value is right.
-/
import Verif.FineAll
import Verif.Props06
import Verif.Findings

set_option linter.unusedSectionVars false

namespace Verif

variable {K : Type} [Field K] [LinearOrder K] {α : Type}

/-- A call that finishes, is exact and raises nothing under the strict tests, returns. -/
theorem Finishes.returns {c : Cfg K} {f : Ops K → E α} (h : Finishes c f) (hx : Exact c f) (hf : ∀ n, Calm (f (ops c.strict n))) : ∃ r, Returns c f r := by
  rcases h with h | ⟨e, he, n, h⟩
  · exact h
  · exact absurd he (hf n e ((hx n).trans h))

theorem Cfg.fine (c : Cfg K) {S : Shp} (h0 : 0 ∉ S) (n : ℕ) : (ops c.strict n).Fine S := ops_fine (strictEnv_lawful _ _) (strictEnv_calm _ _) h0 n

theorem compat_bt {a b : Tensor K} (h : Compat a.sh b.sh) : Compat a.bt b.bt := h.drop 2

/-- A matrix the operations accept: well formed, without TiledBlocks, without a Kronecker product inside a LowRank or Woodbury matrix, and not an empty batch. -/
structure Mat.Supported (a : Mat K) : Prop where
  valid : a.Valid
  fit : a.fit true
  batch : 0 ∉ (den a).bt

theorem zero_bsh {s t : Shp} (hs : 0 ∉ s) (ht : 0 ∉ t) : 0 ∉ bsh s t := by
  intro h
  induction s generalizing t with
  | nil => rw [bsh_nil_left] at h; exact ht h
  | cons d s ih =>
    cases t with
    | nil => exact hs h
    | cons e t =>
      rw [bsh_cons, List.mem_cons] at h
      rw [List.mem_cons, not_or] at hs ht
      rcases h with h | h
      · unfold bd at h
        split_ifs at h <;> omega
      · exact ih hs.2 ht.2 h

/-- C45.  `B.dense` of a supported matrix returns the matrix. -/
theorem C45_dense (c : Cfg K) {a : Mat K} (ha : a.Supported) (hx : Exact c fun B => B.dense a) : Returns c (fun B => B.dense a) (den a) := by
  obtain ⟨t, h⟩ := (C35_dense c a).returns hx fun n => (c.fine ha.batch n).dense ha.valid.own ha.fit
  rwa [C04_dense c ha.valid h hx] at h

/-- C45.  The sum of two supported matrices whose shapes broadcast (without stretching a rigid one) is returned, and it is the sum. -/
theorem C45_add (c : Cfg K) {a b : Mat K} (ha : a.Supported) (hb : b.Supported) (hc : Compat (den a).sh (den b).sh) (hs : NoStretch a b)
    (hx : Exact c fun B => B.add a b) : ∃ r, Returns c (fun B => B.add a b) r ∧ r.Valid ∧ IsEltwise (· + ·) (den a) (den b) (den r) := by
  obtain ⟨wa, wb⟩ := ha.valid.common hb.valid (compat_bt hc)
  obtain ⟨r, h⟩ := (C35_add c a b).returns hx fun n => (c.fine (zero_bsh ha.batch hb.batch) n).add wa wb ha.fit hb.fit hs hc
  exact ⟨r, h, C01_add c ha.valid hb.valid (compat_bt hc) hs h hx⟩

/-- C45.  So is the element-wise product, if the factors of two Kronecker products match (`MulDef`). -/
theorem C45_multiply (c : Cfg K) {a b : Mat K} (ha : a.Supported) (hb : b.Supported) (hc : Compat (den a).sh (den b).sh) (hs : MulSafe a b) (hd : MulDef a b)
    (hx : Exact c fun B => B.mul a b) : ∃ r, Returns c (fun B => B.mul a b) r ∧ r.Valid ∧ IsEltwise (· * ·) (den a) (den b) (den r) := by
  obtain ⟨wa, wb⟩ := ha.valid.common hb.valid (compat_bt hc)
  obtain ⟨r, h⟩ := (C35_multiply c a b).returns hx fun n => (c.fine (zero_bsh ha.batch hb.batch) n).mul wa wb ha.fit hb.fit hs hd hc
  exact ⟨r, h, C02_multiply c ha.valid hb.valid (compat_bt hc) hs h hx⟩

/-- C45.  So is the matrix product, for all transposition flags, if the inner dimensions agree and the factors of two Kronecker products compose (`KDom`). -/
theorem C45_matmul (c : Cfg K) {ta tb : Bool} {a b : Mat K} (ha : a.Supported) (hb : b.Supported) (hc : BatchCompat a b) (h2a : 2 ≤ (den a).rank) (h2b : 2 ≤ (den b).rank)
    (hi : (if ta then tr (den a) else den a).cols = (if tb then tr (den b) else den b).rows) (hk : KDom ta tb a b) (hx : Exact c fun B => B.matmul ta tb a b) :
    ∃ r, Returns c (fun B => B.matmul ta tb a b) r ∧ r.Valid ∧ IsMatProd (if ta then tr (den a) else den a) (if tb then tr (den b) else den b) (den r) := by
  obtain ⟨wa, wb⟩ := ha.valid.common hb.valid hc
  obtain ⟨r, h⟩ := (C35_matmul c ta tb a b).returns hx fun n => (c.fine (zero_bsh ha.batch hb.batch) n).matmul wa wb ha.fit hb.fit h2a h2b hi hk
  exact ⟨r, h, C03_matmul c ha.valid hb.valid hc h2a h2b h hx⟩

/-- C45.  So is the diagonal, unless a batched array is a factor of a Kronecker product (`DiagDef`); it is the diagonal if the right factors of Kronecker
products are square (`DiagOk`). -/
theorem C45_diag (c : Cfg K) {a : Mat K} (ha : a.Supported) (h2 : 2 ≤ (den a).rank) (hd : a.DiagDef (den a).bt) (hx : Exact c fun B => B.diag a) :
    ∃ t, Returns c (fun B => B.diag a) t ∧ (a.DiagOk → IsDiagonalOf (den a) t) := by
  obtain ⟨t, h⟩ := (C35_diag c a).returns hx fun n => (c.fine ha.batch n).diag ha.valid.own ha.fit h2 hd
  exact ⟨t, h, fun ho => C11_diag c ha.valid h2 ho h hx⟩

/-- C45.  So are the row and column sums. -/
theorem C45_sum (c : Cfg K) {k : ℕ} {a : Mat K} (hk : k ≤ 1) (ha : a.Supported) (h2 : 2 ≤ (den a).rank) (hx : Exact c fun B => B.sumM k a) :
    ∃ t, Returns c (fun B => B.sumM k a) t ∧ IsSumAxis k (den a) t := by
  obtain ⟨t, h⟩ := (C35_sum c k a).returns hx fun n => (c.fine ha.batch n).sumM hk ha.valid.own ha.fit h2
  exact ⟨t, h, C12_sum_matrix_axis c hk ha.valid h2 h hx⟩

/-! ### The hypotheses are met -/

theorem Ex.supported {a : Mat ℚ} (h : a.WF []) (hf : a.fit true) (hb : (den a).bt = []) : a.Supported := ⟨⟨_, h⟩, hf, by rw [hb]; simp⟩

theorem Ex.W_supported : Ex.W.Supported := Ex.supported (Ex.W_wf _) ⟨trivial, trivial, trivial⟩ rfl
theorem Ex.R_supported : Ex.R.Supported := Ex.supported (Ex.R_wf _) ⟨trivial, trivial, trivial⟩ rfl
theorem Ex.Kr_supported : Ex.Kr.Supported := Ex.supported (Ex.Kr_wf _) ⟨rfl, trivial, trivial⟩ rfl
theorem Ex.KW_wf (S) : (Mat.kron Ex.W Ex.R).WF S := ⟨⟨Ex.W_wf S, Ex.R_wf S⟩, le_refl _, le_refl _⟩
theorem Ex.KW_supported : (Mat.kron Ex.W Ex.R).Supported := Ex.supported (Ex.KW_wf _) ⟨rfl, Ex.W_supported.fit, Ex.R_supported.fit⟩ rfl

/- A Woodbury matrix times a LowRank matrix, element-wise and as a matrix product, a Woodbury plus a LowRank matrix; the diagonal, the sums and the dense form of a
Kronecker product of the two; a Kronecker product with a Kronecker product. -/
example : ∃ r, Returns Ex.cfg (fun B => B.mul Ex.W Ex.R) r ∧ r.Valid ∧ IsEltwise (· * ·) (den Ex.W) (den Ex.R) (den r) :=
  C45_multiply Ex.cfg Ex.W_supported Ex.R_supported (by decide +kernel) ⟨⟨fun _ => ⟨by decide +kernel, by decide +kernel⟩, fun _ => ⟨by decide +kernel, by decide +kernel⟩⟩, fun _ => trivial, fun _ => trivial⟩
    ⟨fun _ _ => trivial, fun _ _ => trivial, fun _ _ => ⟨⟨by decide +kernel, by decide +kernel⟩, ⟨by decide +kernel, by decide +kernel⟩⟩⟩ ((Ex.meets (Calls.mul _ _) (n := 10) (by decide +kernel)).elim fun _ h => h.2)
example : ∃ r, Returns Ex.cfg (fun B => B.add Ex.W Ex.R) r ∧ r.Valid ∧ IsEltwise (· + ·) (den Ex.W) (den Ex.R) (den r) :=
  C45_add Ex.cfg Ex.W_supported Ex.R_supported (by decide +kernel) ⟨fun _ => ⟨by decide +kernel, by decide +kernel⟩, fun _ => ⟨by decide +kernel, by decide +kernel⟩⟩
    ((Ex.meets (Calls.add _ _) (n := 10) (by decide +kernel)).elim fun _ h => h.2)
example : ∃ r, Returns Ex.cfg (fun B => B.matmul true false Ex.W Ex.R) r ∧ r.Valid ∧ IsMatProd (tr (den Ex.W)) (den Ex.R) (den r) :=
  C45_matmul Ex.cfg (ta := true) (tb := false) Ex.W_supported Ex.R_supported (by decide +kernel) (by decide +kernel) (by decide +kernel) (by decide +kernel)
    (fun h => by simp [Mat.isKron, Ex.W, Ex.R] at h) ((Ex.meets (Calls.matmul _ _ _ _) (n := 12) (by decide +kernel)).elim fun _ h => h.2)
example : ∃ r, Returns Ex.cfg (fun B => B.matmul true false Ex.Kr Ex.Kr) r ∧ r.Valid ∧ IsMatProd (tr (den Ex.Kr)) (den Ex.Kr) (den r) :=
  C45_matmul Ex.cfg (ta := true) (tb := false) Ex.Kr_supported Ex.Kr_supported (by decide +kernel) (by decide +kernel) (by decide +kernel) (by decide +kernel)
    ⟨by decide +kernel, by decide +kernel, fun h => by simp [Mat.isKron, Ex.M] at h, fun h => by simp [Mat.isKron] at h⟩
    ((Ex.meets (Calls.matmul _ _ _ _) (n := 12) (by decide +kernel)).elim fun _ h => h.2)
example : Returns Ex.cfg (fun B => B.dense (.kron Ex.W Ex.R)) (den (.kron Ex.W Ex.R)) :=
  C45_dense Ex.cfg Ex.KW_supported ((Ex.meets (Calls.dense _) (n := 10) (by decide +kernel)).elim fun _ h => h.2)
example : ∃ t, Returns Ex.cfg (fun B => B.diag (.kron Ex.W Ex.R)) t ∧ ((Mat.kron Ex.W Ex.R).DiagOk → IsDiagonalOf (den (.kron Ex.W Ex.R)) t) :=
  C45_diag Ex.cfg Ex.KW_supported (by decide +kernel) ⟨trivial, trivial⟩ ((Ex.meets (Calls.diag _) (n := 10) (by decide +kernel)).elim fun _ h => h.2)
example : ∃ t, Returns Ex.cfg (fun B => B.sumM 1 (.kron Ex.W Ex.R)) t ∧ IsSumAxis 1 (den (.kron Ex.W Ex.R)) t :=
  C45_sum Ex.cfg le_rfl Ex.KW_supported (by decide +kernel) ((Ex.meets (Calls.sumM _ _) (n := 10) (by decide +kernel)).elim fun _ h => h.2)

/-! ### The conditions are needed

Each of these operands is well formed and the shapes fit, so the operation is defined on the dense arrays; the library raises. -/

/-- What a run raises. -/
def Ex.errOf {α : Type} : E α → Option Err
  | .ok _ => none
  | .error e => some e

theorem Ex.raises {α : Type} {f : Ops ℚ → E α} {e : Err} {n : ℕ} (h : Ex.errOf (f (ops Ex.cfg.code n)) = some e) (he : e.real) : Raises Ex.cfg f e := by
  refine ⟨he, n, ?_⟩
  cases e' : f (ops Ex.cfg.code n) with
  | ok r => rw [e'] at h; simp [Ex.errOf] at h
  | error x => rw [e'] at h; simp only [Ex.errOf, Option.some.injEq] at h; rw [h]

/-- C45, refuted without `MulDef`: the element-wise product of two Kronecker products of the same shape raises `AssertionError` if the factors have different shapes. -/
theorem C45_multiply_kron_refuted : ∃ a b : Mat ℚ, a.Supported ∧ b.Supported ∧ (den a).sh = (den b).sh ∧ MulSafe a b ∧ Raises Ex.cfg (fun B => B.mul a b) .assertion := by
  let a : Mat ℚ := .kron Ex.M (.dense (Ex.m 1 1 [2]))
  let b : Mat ℚ := .kron (.dense (Ex.m 1 1 [2])) Ex.M
  exact ⟨a, b, Ex.supported ⟨⟨Ex.M_wf _, ⟨by decide, Fits.nil _⟩⟩, le_refl _, le_refl _⟩ ⟨rfl, trivial, trivial⟩ rfl,
    Ex.supported ⟨⟨⟨by decide, Fits.nil _⟩, Ex.M_wf _⟩, le_refl _, le_refl _⟩ ⟨rfl, trivial, trivial⟩ rfl, by decide +kernel,
    ⟨⟨fun _ => ⟨by decide +kernel, by decide +kernel⟩, fun _ => ⟨by decide +kernel, by decide +kernel⟩⟩, fun h => by simp [Mat.readsDiag, a, Ex.M] at h, fun h => by simp [Mat.readsDiag, b, Ex.M] at h⟩,
    Ex.raises (n := 4) (by decide +kernel) (by decide)⟩

/-- C45, refuted without `MulDef`: the element-wise product of two LowRank matrices of rank zero (zero matrices) raises. -/
theorem C45_multiply_rank0_refuted : ∃ a : Mat ℚ, a.Supported ∧ MulSafe a a ∧ ∃ e, Raises Ex.cfg (fun B => B.mul a a) e := by
  let a : Mat ℚ := .lr (.num (Ex.m 2 0 [])) (.num (Ex.m 2 0 [])) (.num (Ex.m 0 0 []))
  exact ⟨a, Ex.supported ⟨⟨Ex.num_wf _ _ _ _, Ex.num_wf _ _ _ _, Ex.num_wf _ _ _ _⟩, ⟨le_refl _, le_refl _, le_refl _⟩, rfl, rfl⟩ ⟨trivial, trivial, trivial⟩ rfl,
    ⟨⟨fun _ => ⟨by decide +kernel, by decide +kernel⟩, fun _ => ⟨by decide +kernel, by decide +kernel⟩⟩, fun _ => trivial, fun _ => trivial⟩, .value, Ex.raises (n := 6) (by decide +kernel) (by decide)⟩

/-- C45, refuted without `KDom`: the matrix product of two `2 × 2` Kronecker products whose factors do not compose raises `AssertionError`. -/
theorem C45_matmul_kron_refuted : ∃ a b : Mat ℚ, a.Supported ∧ b.Supported ∧ (den a).cols = (den b).rows ∧
    Raises Ex.cfg (fun B => B.matmul false false a b) .assertion := by
  let a : Mat ℚ := .kron Ex.M (.dense (Ex.m 1 1 [2]))
  let b : Mat ℚ := .kron (.dense (Ex.m 1 1 [2])) Ex.M
  exact ⟨a, b, Ex.supported ⟨⟨Ex.M_wf _, ⟨by decide, Fits.nil _⟩⟩, le_refl _, le_refl _⟩ ⟨rfl, trivial, trivial⟩ rfl,
    Ex.supported ⟨⟨⟨by decide, Fits.nil _⟩, Ex.M_wf _⟩, le_refl _, le_refl _⟩ ⟨rfl, trivial, trivial⟩ rfl, by decide +kernel,
    Ex.raises (n := 4) (by decide +kernel) (by decide)⟩

/-- C45, refuted without `KDom`: a Kronecker product times a matrix without columns raises. -/
theorem C45_matmul_kron_empty_refuted : ∃ a b : Mat ℚ, a.Supported ∧ b.Supported ∧ (den a).cols = (den b).rows ∧
    ∃ e, Raises Ex.cfg (fun B => B.matmul false false a b) e := by
  let b : Mat ℚ := .dense (Ex.m 4 0 [])
  exact ⟨Ex.Kr, b, Ex.Kr_supported, Ex.supported ⟨by decide, Fits.nil _⟩ trivial rfl, by decide +kernel, .value, Ex.raises (n := 6) (by decide +kernel) (by decide)⟩

/-- C45, refuted without `DiagDef`: the diagonal of a Kronecker product with a batched array as a factor raises. -/
theorem C45_diag_kron_refuted : ∃ a : Mat ℚ, a.Supported ∧ a.DiagOk ∧ ∃ e, Raises Ex.cfg (fun B => B.diag a) e := by
  let a : Mat ℚ := .kron (.num (Ex.bm 2 2 2 [1, 2, 3, 4, 5, 6, 7, 8])) (.num (Ex.bm 2 2 2 [1, 2, 3, 4, 5, 6, 7, 8]))
  have w : (Mat.num (Ex.bm 2 2 2 [1, 2, 3, 4, 5, 6, 7, 8])).WF [2] := ⟨by decide, Fits.refl _⟩
  exact ⟨a, ⟨⟨[2], ⟨w, w⟩, by decide +kernel, by decide +kernel⟩, ⟨rfl, trivial, trivial⟩, by decide +kernel⟩, ⟨by decide +kernel, trivial, trivial⟩,
    .value, Ex.raises (n := 4) (by decide +kernel) (by decide)⟩

/-- C45, refuted for an empty batch: the sum of two LowRank matrices raises `IndexError`. -/
theorem C45_add_empty_batch_refuted : ∃ a : Mat ℚ, a.Valid ∧ a.fit true ∧ NoStretch a a ∧ ∃ e, Raises Ex.cfg (fun B => B.add a a) e := by
  let t (r c : ℕ) : Mat ℚ := .num (Ex.bm 0 r c [])
  let a : Mat ℚ := .lr (t 2 1) (t 2 1) (t 1 1)
  have w (r c : ℕ) : (t r c).WF [0] := ⟨by simp [Ex.bm, Tensor.rank], Fits.refl _⟩
  exact ⟨a, ⟨[0], ⟨w _ _, w _ _, w _ _⟩, ⟨by decide +kernel, by decide +kernel, by decide +kernel⟩, by decide +kernel, by decide +kernel⟩, ⟨trivial, trivial, trivial⟩,
    ⟨fun _ => ⟨by decide +kernel, by decide +kernel⟩, fun _ => ⟨by decide +kernel, by decide +kernel⟩⟩, .index, Ex.raises (n := 6) (by decide +kernel) (by decide)⟩

/-- C45, refuted for TiledBlocks: there is no method for their diagonal. -/
theorem C45_diag_tiled_refuted : ∃ a : Mat ℚ, a.Valid ∧ ∃ e, Raises Ex.cfg (fun B => B.diag a) e :=
  ⟨Ex.T, ⟨[], Ex.T_wf _⟩, .notFound, Ex.raises (n := 4) (by decide +kernel) (by decide)⟩

/-- C45, refuted for Kronecker products inside a LowRank matrix: the product of two LowRank matrices, whose factors are Kronecker products of the same shape, raises. -/
theorem C45_lowrank_kron_refuted : ∃ a b : Mat ℚ, a.Valid ∧ b.Valid ∧ (den a).cols = (den b).rows ∧ Raises Ex.cfg (fun B => B.matmul false false a b) .assertion := by
  let k : Mat ℚ := .kron Ex.M (.dense (Ex.m 1 1 [2]))
  let k' : Mat ℚ := .kron (.dense (Ex.m 1 1 [2])) Ex.M
  have w : k.WF [] := ⟨⟨Ex.M_wf _, ⟨by decide, Fits.nil _⟩⟩, le_refl _, le_refl _⟩
  have w' : k'.WF [] := ⟨⟨⟨by decide, Fits.nil _⟩, Ex.M_wf _⟩, le_refl _, le_refl _⟩
  exact ⟨.lr k k Ex.M, .lr k' k' Ex.M, ⟨[], ⟨w, w, Ex.M_wf _⟩, ⟨by decide +kernel, by decide +kernel, by decide +kernel⟩, by decide +kernel, by decide +kernel⟩,
    ⟨[], ⟨w', w', Ex.M_wf _⟩, ⟨by decide +kernel, by decide +kernel, by decide +kernel⟩, by decide +kernel, by decide +kernel⟩, by decide +kernel,
    Ex.raises (n := 6) (by decide +kernel) (by decide)⟩

end Verif
