/-
C56.  Linear algebra that never warns: arrays, Dense and Diagonal matrices, Woodbury matrices built from arrays, Kronecker products of these.
-/
import Verif.WarnLin

set_option linter.unusedSectionVars false

namespace Verif

variable {K : Type} [Field K] [LinearOrder K]

/-! ### Specification -/

/-- An array that is not a scalar, or a Dense matrix. -/
def Mat.arr : Mat K → Prop
  | .num t => t.rank ≠ 0
  | .dense _ => True
  | _ => False

/-- An array that is not a scalar, a Dense matrix or a Diagonal matrix. -/
def Mat.arrD : Mat K → Prop
  | .diag _ => True
  | a => a.arr

/-- Arrays, Dense and Diagonal matrices, Woodbury matrices whose left and right factors are arrays or Dense matrices and whose middle is an array, a Dense
or a Diagonal matrix, and Kronecker products of all these. -/
def Mat.ofArr : Mat K → Prop
  | .wb _ l r m => l.arr ∧ r.arr ∧ m.arrD
  | .kron l r => l.ofArr ∧ r.ofArr
  | .diag _ => True
  | a => a.arr

/-- Operands of `B.cholesky`: arrays, Zero, Dense, Diagonal and Constant matrices, LowRank matrices with an array on the left and an array, Dense or Diagonal middle,
and Kronecker products of all these. -/
def Mat.ofArrC : Mat K → Prop
  | .lr l _ m => l.arr ∧ m.arrD
  | .kron l r => l.ofArrC ∧ r.ofArrC
  | .num _ | .zero .. | .dense _ | .diag _ | .const .. => True
  | _ => False

/-- Operands of `B.root`: arrays, Zero, Dense, Diagonal and Constant matrices, and Kronecker products of these. -/
def Mat.ofArrR : Mat K → Prop
  | .kron l r => l.ofArrR ∧ r.ofArrR
  | .num _ | .zero .. | .dense _ | .diag _ | .const .. => True
  | _ => False

/-! ### Runs without warnings -/

/-- Whatever `y` returns, `x` returns too. -/
def Sil {α : Type} (x y : E α) : Prop := ∀ r, y = .ok r → x = .ok r

section
variable {α β : Type}
theorem Sil.refl (x : E α) : Sil x x := fun _ h => h
theorem Sil.of_eq {x y : E α} (h : x = y) : Sil x y := fun _ e => h.trans e
theorem Sil.bind {x y : E α} {f g : α → E β} (h : Sil x y) (hf : ∀ v, y = .ok v → Sil (f v) (g v)) : Sil (x >>= f) (y >>= g) := by
  intro r e
  obtain ⟨v, hv, e⟩ := bind_ok_iff.1 e
  exact bind_ok_iff.2 ⟨v, h v hv, hf v hv r e⟩
theorem Sil.ite {c : Prop} [Decidable c] {x y x' y' : E α} (h : Sil x y) (h' : Sil x' y') : Sil (if c then x else x') (if c then y else y') := by
  split_ifs <;> assumption
end

section
variable {env : Env K} {lin : LinEnv K}

theorem Mat.arr.kindC {a : Mat K} (h : a.arr) : kindC env a = .dense := by
  cases a with
  | num t => have h : t.rank ≠ 0 := h; simp [Verif.kindC, convertAM, h, mkDense, Mat.kind]
  | dense t => rfl
  | _ => exact h.elim

theorem Mat.arrD.kindC {a : Mat K} (h : a.arrD) : kindC env a = .dense ∨ kindC env a = .diag := by
  cases a with
  | diag t => exact .inr rfl
  | _ => exact .inl (Mat.arr.kindC h)

theorem arr_of_dense {a : Mat K} (h : a.kind = some .dense) : a.arr := by
  cases a <;> simp [Mat.kind] at h
  exact True.intro

theorem Mat.arr.triRk {a : Mat K} (h : a.arr) : TriRk a := by cases a <;> first | exact True.intro | exact h.elim
theorem Mat.arrD.triRk {a : Mat K} (h : a.arrD) : TriRk a := by cases a <;> first | exact True.intro | exact h.elim
theorem Mat.arr.arrD {a : Mat K} (h : a.arr) : a.arrD := by cases a <;> first | exact True.intro | exact h

theorem Mat.arrD.ofArr {a : Mat K} (h : a.arrD) : a.ofArr := by cases a <;> first | exact h | exact h.elim
theorem Mat.arrD.ofArrC {a : Mat K} (h : a.arrD) : a.ofArrC := by cases a <;> first | exact True.intro | exact h.elim

/-- Products of operands that act as single-array matrices. -/
theorem mm_sil (n : ℕ) {ta tb : Bool} {a b : Mat K} (ha : (kindC env a).single) (hb : (kindC env b).single) (ra : TriRk a) (rb : TriRk b)
    (hm : ¬ MixTri ta tb (kindC env a) (kindC env b)) : (wops env n).matmul ta tb a b = (ops env n).matmul ta tb a b := by
  by_cases hab : a.isAM = true ∨ b.isAM = true
  · rw [wops_matmul_convert n hab, ops_matmul_convert n hab]
    exact mm_eq n (kind_convertAM env a) (kind_convertAM env b) (triRk_convert ra) (triRk_convert rb) ha hb hm
  · push Not at hab
    cases a <;> first | exact absurd rfl hab.1 | skip
    cases b <;> first | exact absurd rfl hab.2 | skip
    cases n <;> rfl

theorem not_mixTri {ta tb : Bool} {k k' : Kind} (h : k = .dense ∨ k = .diag ∨ k' = .dense ∨ k' = .diag) : ¬ MixTri ta tb k k' := by
  rintro (⟨rfl, rfl⟩ | ⟨rfl, rfl⟩ | ⟨rfl, rfl, _⟩ | ⟨rfl, rfl, _⟩) <;> simp at h

theorem mm_arrD (n : ℕ) {ta tb : Bool} {a b : Mat K} (ha : a.arrD) (hb : b.arrD) : (wops env n).matmul ta tb a b = (ops env n).matmul ta tb a b := by
  refine mm_sil n ?_ ?_ ha.triRk hb.triRk (not_mixTri ?_)
  · rcases ha.kindC (env := env) with h | h <;> rw [h] <;> trivial
  · rcases hb.kindC (env := env) with h | h <;> rw [h] <;> trivial
  · exact (ha.kindC (env := env)).elim .inl fun h => .inr (.inl h)

/-- A product of arrays, Dense and at most one Diagonal matrix is again an array or a Dense matrix. -/
theorem arr_mm {n : ℕ} {ta tb : Bool} {a b r : Mat K} (ha : a.arrD) (hb : b.arrD) (h : a.arr ∨ b.arr) (e : (ops env n).matmul ta tb a b = .ok r) : r.arr := by
  by_cases hab : a.isAM = true ∨ b.isAM = true
  · obtain ⟨k, hk, e⟩ := ops_mmKinds env n ta tb a b hab ha.triRk hb.triRk r e
    refine arr_of_dense ?_
    rw [e]
    rcases h with h | h
    · rw [h.kindC] at hk
      rcases hb.kindC (env := env) with h | h <;> rw [h] at hk <;> simpa [mmOut] using hk
    · rw [h.kindC] at hk
      rcases ha.kindC (env := env) with h | h <;> rw [h] at hk <;> simpa [mmOut] using hk
  · push Not at hab
    cases a <;> first | exact absurd rfl hab.1 | skip
    cases b <;> first | exact absurd rfl hab.2 | skip
    cases n with
    | zero => cases e
    | succ n =>
      obtain ⟨t, ht, e⟩ := bind_ok_iff.1 (show (do return Mat.num (← nMatmul ta tb _ _) : E (Mat K)) = .ok r from e)
      cases e
      unfold nMatmul at ht
      split_ifs at ht
      cases ht
      show (mm _ _).rank ≠ 0
      simp [Tensor.rank]

/-- With one Dense matrix the product is Dense. -/
theorem dense_mm {n : ℕ} {ta tb : Bool} {a b r : Mat K} (ha : a.arrD) (hb : b.arrD) (h : a.arr ∨ b.arr) (hab : a.isAM = true ∨ b.isAM = true)
    (e : (ops env n).matmul ta tb a b = .ok r) : r.kind = some .dense := by
  obtain ⟨k, hk, e⟩ := ops_mmKinds env n ta tb a b hab ha.triRk hb.triRk r e
  rw [e]
  rcases h with h | h
  · rw [h.kindC] at hk
    rcases hb.kindC (env := env) with h | h <;> rw [h] at hk <;> simpa [mmOut] using hk
  · rw [h.kindC] at hk
    rcases ha.kindC (env := env) with h | h <;> rw [h] at hk <;> simpa [mmOut] using hk

/-- Sums with a Dense matrix never warn, for operands that act as single-array matrices. -/
theorem add_sil (n : ℕ) {a b : Mat K} (ha : (kindC env a).single) (hb : b.kind = some .dense) : Sil ((wops env n).add a b) ((ops env n).add a b) := by
  intro r h
  have hab : a.isAM = true ∨ b.isAM = true := .inr (isAM_of_kind hb)
  have eb : convertAM env b = b := convertAM_of_kind hb
  rw [ops_add_convert n hab, eb] at h
  rw [wops_add_convert n hab, eb]
  have ka := kind_convertAM env a
  by_cases hz : kindC env a = .zero
  · exact addZero_eq ka hb ha trivial (.inl hz) (.inr (.inl rfl)) h
  · rw [add_eq n ka hb ha trivial hz (by decide) (fun h => by rcases h.2 with h | h <;> cases h) (fun h => by cases h.1), h]

theorem dense_add {n : ℕ} {a b r : Mat K} (ha : a.isAM = false ∨ a.arrD) (hb : b.kind = some .dense) (e : (ops env n).add a b = .ok r) : r.kind = some .dense := by
  obtain ⟨k, hk, e⟩ := ops_addKinds env n a b (.inr (isAM_of_kind hb)) r e
  rw [e]
  rw [kindC_am hb] at hk
  have : kindC env a = .dense ∨ kindC env a = .diag ∨ kindC env a = .const ∨ kindC env a = .zero := by
    rcases ha with ha | ha
    · cases a <;> simp [Mat.isAM] at ha
      simp only [kindC, convertAM]; split_ifs <;> simp [Mat.kind, mkDense]
    · rcases ha.kindC (env := env) with h | h <;> simp [h]
  rcases this with h | h | h | h <;> rw [h] at hk <;> simpa [addOut] using hk

theorem numDense_eq (n : ℕ) (t : Tensor K) : (wops env n).dense (.num t) = (ops env n).dense (.num t) := by cases n <;> rfl

theorem denseArr_eq (n : ℕ) {a : Mat K} (h : a.arr) : (wops env n).dense a = (ops env n).dense a := by
  cases a with
  | num t => exact numDense_eq n t
  | dense t => exact dense_eq n (k := .dense) rfl trivial
  | _ => exact h.elim

theorem mm3_sil (n : ℕ) {ta tb tc : Bool} {a b c : Mat K} (ha : a.arr) (hb : b.arrD) (hc : c.arr) :
    Sil (matmul3 (wops env n) ta tb tc a b c) (matmul3 (ops env n) ta tb tc a b c) := by
  unfold matmul3
  refine (Sil.refl _).bind fun _ _ => (Sil.refl _).bind fun _ _ => (Sil.refl _).bind fun _ _ => Sil.ite ?_ ?_
  · exact (Sil.of_eq (mm_arrD n ha.arrD hb)).bind fun x hx => .of_eq (mm_arrD n (arr_mm ha.arrD hb (.inl ha) hx).arrD hc.arrD)
  · exact (Sil.of_eq (mm_arrD n hb hc.arrD)).bind fun x hx => .of_eq (mm_arrD n ha.arrD (arr_mm hb hc.arrD (.inr hc) hx).arrD)

theorem mm3_dense {n : ℕ} {ta tb tc : Bool} {a b c r : Mat K} (ha : a.arr) (hb : b.arrD) (hc : c.arr) (h : b.isAM = true)
    (e : matmul3 (ops env n) ta tb tc a b c = .ok r) : r.kind = some .dense := by
  unfold matmul3 at e
  obtain ⟨_, _, e⟩ := bind_ok_iff.1 e
  obtain ⟨_, _, e⟩ := bind_ok_iff.1 e
  obtain ⟨_, _, e⟩ := bind_ok_iff.1 e
  dsimp only at e
  split_ifs at e
  · obtain ⟨x, hx, e⟩ := bind_ok_iff.1 e
    have h1 := dense_mm ha.arrD hb (.inl ha) (.inr h) hx
    exact dense_mm (arr_of_dense h1).arrD hc.arrD (.inr hc) (.inl (isAM_of_kind h1)) e
  · obtain ⟨x, hx, e⟩ := bind_ok_iff.1 e
    have h1 := dense_mm hb hc.arrD (.inr hc) (.inl h) hx
    exact dense_mm ha.arrD (arr_of_dense h1).arrD (.inl ha) (.inr (isAM_of_kind h1)) e

theorem mm3_arr {n : ℕ} {ta tb tc : Bool} {a b c r : Mat K} (ha : a.arr) (hb : b.arrD) (hc : c.arr)
    (e : matmul3 (ops env n) ta tb tc a b c = .ok r) : r.arr := by
  unfold matmul3 at e
  obtain ⟨_, _, e⟩ := bind_ok_iff.1 e
  obtain ⟨_, _, e⟩ := bind_ok_iff.1 e
  obtain ⟨_, _, e⟩ := bind_ok_iff.1 e
  dsimp only at e
  split_ifs at e
  · obtain ⟨x, hx, e⟩ := bind_ok_iff.1 e
    exact arr_mm (arr_mm ha.arrD hb (.inl ha) hx).arrD hc.arrD (.inr hc) e
  · obtain ⟨x, hx, e⟩ := bind_ok_iff.1 e
    exact arr_mm ha.arrD (arr_mm hb hc.arrD (.inr hc) hx).arrD (.inl ha) e

/-- The dense form of a low-rank matrix built from arrays. -/
theorem denseLR_sil (n : ℕ) {l r m : Mat K} (hl : l.arr) (hr : r.arr) (hm : m.arrD) : Sil ((wops env n).dense (.lr l r m)) ((ops env n).dense (.lr l r m)) := by
  cases n with
  | zero => exact .refl _
  | succ n =>
    refine (mm3_sil n hl hm hr).bind fun x hx => .of_eq ?_
    exact denseArr_eq n (mm3_arr hl hm hr hx)

/-- A low-rank matrix built from arrays. -/
def LrArr (x : Mat K) : Prop := ∃ l r m, x = .lr l r m ∧ l.arr ∧ r.arr ∧ m.arrD

theorem rank_nTranspose {t : Tensor K} (h : t.rank ≠ 0) : (nTranspose t).rank ≠ 0 := by
  unfold nTranspose
  split_ifs
  · simp [Tensor.rank]
  · exact h

theorem arr_transpose {a r : Mat K} (h : a.arr) (e : transposeM a = .ok r) : r.arr := by
  cases a with
  | num t => cases e; exact rank_nTranspose h
  | dense t => cases e; exact True.intro
  | _ => exact h.elim
theorem arrD_transpose {a r : Mat K} (h : a.arrD) (e : transposeM a = .ok r) : r.arrD := by
  cases a with
  | diag t => cases e; exact True.intro
  | num t => exact (arr_transpose (a := .num t) h e).arrD
  | dense t => exact (arr_transpose (a := .dense t) h e).arrD
  | _ => exact h.elim
theorem arr_trM {t : Bool} {a r : Mat K} (h : a.arr) (e : trM t a = .ok r) : r.arr := by
  cases t with
  | false => cases e; exact h
  | true => exact arr_transpose h e
theorem lrArr_trM {t : Bool} {l r m x : Mat K} (hl : l.arr) (hr : r.arr) (hm : m.arrD) (e : trM t (.lr l r m) = .ok x) : LrArr x := by
  cases t with
  | false => cases e; exact ⟨_, _, _, rfl, hl, hr, hm⟩
  | true =>
    obtain ⟨m', h1, e⟩ := bind_ok_iff.1 (show (transposeM m >>= fun m' => mkLR r l m') = .ok x from e)
    exact ⟨_, _, _, post_mkLR _ _ _ _ e, hr, hl, arrD_transpose hm h1⟩

/-- Dense + LowRank. -/
theorem addDenseLR_sil (n : ℕ) {x y : Mat K} (hx : x.kind = some .dense) (hy : LrArr y) : Sil ((wops env n).add x y) ((ops env n).add x y) := by
  obtain ⟨l, r, m, rfl, hl, hr, hm⟩ := hy
  cases n with
  | zero => exact .refl _
  | succ n =>
    rw [wAdd_am hx rfl, stepAdd_am hx rfl]
    cases x <;> simp only [Mat.kind, Option.some.injEq, reduceCtorEq] at hx
    exact (Sil.of_eq (dense_eq n (k := .dense) rfl trivial)).bind fun _ _ => (denseLR_sil n hl hr hm).bind fun _ _ => .refl _

/-- LowRank @ array. -/
theorem mmLR_sil (n : ℕ) {ta tb : Bool} {l r m b : Mat K} (hl : l.arr) (hr : r.arr) (hm : m.arrD) (hb : b.kind = some .dense) :
    Sil ((wops env n).matmul ta tb (.lr l r m) b) ((ops env n).matmul ta tb (.lr l r m) b) ∧
      ∀ y, (ops env n).matmul ta tb (.lr l r m) b = .ok y → LrArr y := by
  cases n with
  | zero => exact ⟨.refl _, fun _ h => by cases h⟩
  | succ n =>
    have e : mmId .lr .dense = some .lrAm := rfl
    rw [wMatmul_am (k := .lr) rfl hb e, stepMatmul_am (k := .lr) rfl hb e, wMmRun_eq (by decide) (by decide)]
    constructor
    · refine (Sil.refl _).bind (f := fun _ => _) (g := fun _ => _) (x := pure ()) (y := pure ()) fun _ _ => ?_
      refine (Sil.refl _).bind fun _ _ => (Sil.refl _).bind fun x hx => ?_
      obtain ⟨l', r', m', rfl, hl', hr', hm'⟩ := lrArr_trM hl hr hm hx
      refine (Sil.refl _).bind fun b' hb' => (Sil.of_eq (mm_arrD n ?_ hr'.arrD)).bind fun _ _ => .refl _
      exact (arr_trM (arr_of_dense hb) hb').arrD
    · intro y h
      obtain ⟨_, _, h⟩ := bind_ok_iff.1 h
      obtain ⟨x, hx, h⟩ := bind_ok_iff.1 h
      obtain ⟨l', r', m', rfl, hl', hr', hm'⟩ := lrArr_trM hl hr hm hx
      obtain ⟨b', hb', h⟩ := bind_ok_iff.1 h
      obtain ⟨z, hz, h⟩ := bind_ok_iff.1 h
      exact ⟨_, _, _, post_mkLR _ _ _ _ h, hl', arr_mm (arr_trM (arr_of_dense hb) hb').arrD hr'.arrD (.inr hr') hz, hm'⟩

/-- array @ LowRank. -/
theorem mmAmLR_sil (n : ℕ) {ta tb : Bool} {l r m a : Mat K} (hl : l.arr) (hr : r.arr) (hm : m.arrD) (ha : a.kind = some .dense) :
    Sil ((wops env n).matmul ta tb a (.lr l r m)) ((ops env n).matmul ta tb a (.lr l r m)) ∧
      ∀ y, (ops env n).matmul ta tb a (.lr l r m) = .ok y → LrArr y := by
  cases n with
  | zero => exact ⟨.refl _, fun _ h => by cases h⟩
  | succ n =>
    have e : mmId .dense .lr = some .amLr := rfl
    rw [wMatmul_am ha (k' := .lr) rfl e, stepMatmul_am ha (k' := .lr) rfl e, wMmRun_eq (by decide) (by decide)]
    constructor
    · refine (Sil.refl _).bind (f := fun _ => _) (g := fun _ => _) (x := pure ()) (y := pure ()) fun _ _ => ?_
      refine (Sil.refl _).bind fun _ _ => (Sil.refl _).bind fun x hx => ?_
      obtain ⟨l', r', m', rfl, hl', hr', hm'⟩ := lrArr_trM hl hr hm hx
      refine (Sil.refl _).bind fun a' ha' => (Sil.of_eq (mm_arrD n ?_ hl'.arrD)).bind fun _ _ => .refl _
      exact (arr_trM (arr_of_dense ha) ha').arrD
    · intro y h
      obtain ⟨_, _, h⟩ := bind_ok_iff.1 h
      obtain ⟨x, hx, h⟩ := bind_ok_iff.1 h
      obtain ⟨l', r', m', rfl, hl', hr', hm'⟩ := lrArr_trM hl hr hm hx
      obtain ⟨a', ha', h⟩ := bind_ok_iff.1 h
      obtain ⟨z, hz, h⟩ := bind_ok_iff.1 h
      exact ⟨_, _, _, post_mkLR _ _ _ _ h, arr_mm (arr_trM (arr_of_dense ha) ha').arrD hl'.arrD (.inr hl') hz, hr', hm'⟩

/-- Woodbury @ Dense. -/
theorem mmWB_sil (n : ℕ) {ta tb : Bool} {d : Tensor K} {l r m b : Mat K} (hl : l.arr) (hr : r.arr) (hm : m.arrD) (hb : b.kind = some .dense) :
    Sil ((wops env n).matmul ta tb (.wb d l r m) b) ((ops env n).matmul ta tb (.wb d l r m) b) := by
  cases n with
  | zero => exact .refl _
  | succ n =>
    have e : mmId .wb .dense = some .wbAm := rfl
    rw [wMatmul_am (k := .wb) rfl hb e, stepMatmul_am (k := .wb) rfl hb e, wMmRun_eq (by decide) (by decide)]
    have hd : (Mat.diag d : Mat K).arrD := True.intro
    have hb' := (arr_of_dense hb)
    refine (Sil.of_eq (mm_arrD n hd hb'.arrD)).bind fun x hx => (mmLR_sil n hl hr hm hb).1.bind fun y hy => ?_
    exact addDenseLR_sil n (dense_mm hd hb'.arrD (.inr hb') (.inl rfl) hx) ((mmLR_sil n hl hr hm hb).2 y hy)

/-- Dense @ Woodbury. -/
theorem mmAmWB_sil (n : ℕ) {ta tb : Bool} {d : Tensor K} {l r m a : Mat K} (hl : l.arr) (hr : r.arr) (hm : m.arrD) (ha : a.kind = some .dense) :
    Sil ((wops env n).matmul ta tb a (.wb d l r m)) ((ops env n).matmul ta tb a (.wb d l r m)) := by
  cases n with
  | zero => exact .refl _
  | succ n =>
    have e : mmId .dense .wb = some .amWb := rfl
    rw [wMatmul_am ha (k' := .wb) rfl e, stepMatmul_am ha (k' := .wb) rfl e, wMmRun_eq (by decide) (by decide)]
    have hd : (Mat.diag d : Mat K).arrD := True.intro
    have ha' := (arr_of_dense ha)
    refine (Sil.of_eq (mm_arrD n ha'.arrD hd)).bind fun x hx => (mmAmLR_sil n hl hr hm ha).1.bind fun y hy => ?_
    exact addDenseLR_sil n (dense_mm ha'.arrD hd (.inl ha') (.inr rfl) hx) ((mmAmLR_sil n hl hr hm ha).2 y hy)

/-! ### Linear algebra -/

/-- A Woodbury matrix built from arrays. -/
def WbArr (x : Mat K) : Prop := ∃ d l r m, x = .wb d l r m ∧ l.arr ∧ r.arr ∧ m.arrD

/-- The functions of linear algebra with and without warnings agree where nothing warns. -/
structure LSil (env : Env K) (W L : LOps K) : Prop where
  inv : ∀ a, a.ofArr → Sil (W.inv a) (L.inv a)
  invWB : ∀ d l r m, l.arr → r.arr → m.arrD → ∀ x, L.inv (.wb d l r m) = .ok x → WbArr x
  pdInv : ∀ a, a.ofArr → Sil (W.pdInv a) (L.pdInv a)
  pdInvWB : ∀ d l r m, l.arr → r.arr → m.arrD → ∀ x, L.pdInv (.wb d l r m) = .ok x → WbArr x
  chol : ∀ a, a.ofArrC → Sil (W.chol a) (L.chol a)
  cholRk : ∀ t x, L.chol (.dense t) = .ok x → TriRk x
  root : ∀ a, a.ofArrR → Sil (W.root a) (L.root a)
  solve : ∀ a b, (a.arrD ∨ a.kind = some .lt ∨ a.kind = some .ut ∨ WbArr a) → b.arr → Sil (W.solve a b) (L.solve a b)
  cholSolve : ∀ a b, (a.kind = some .diag ∨ a.kind = some .lt ∨ a.kind = some .ut) → b.arr → Sil (W.cholSolve a b) (L.cholSolve a b)
  logdet : ∀ a, a.ofArr → Sil (W.logdet a) (L.logdet a)
  logdetTri : ∀ a, (a.kind = some .diag ∨ a.kind = some .lt ∨ a.kind = some .ut) → Sil (W.logdet a) (L.logdet a)

theorem diag_of_kind {a : Mat K} (h : a.kind = some .diag) : ∃ t, a = .diag t := by cases a <;> simp [Mat.kind] at h; exact ⟨_, rfl⟩
theorem arrD_of_kind {a : Mat K} (h : a.kind = some .diag) : a.arrD := by obtain ⟨t, rfl⟩ := diag_of_kind h; exact True.intro

section
variable {n : ℕ} {W L : LOps K}

theorem invDiag_kind (hk : LKinds env L) {d : Tensor K} {x : Mat K} (h : L.inv (.diag d) = .ok x) : x.kind = some .diag := hk.inv _ _ h

/-- diag - LowRank. -/
theorem subDiagLR (hd : x.kind = some .diag) (l r m : Mat K) : Sil (do subtractM env (wops env n) x (← mkLR l r m)) (do subtractM env (ops env n) x (← mkLR l r m)) := by
  refine (Sil.refl _).bind fun y hy => ?_
  obtain ⟨t, rfl⟩ := diag_of_kind hd
  obtain rfl := post_mkLR _ _ _ _ hy
  show Sil (do (wops env n).add (.diag t) (← negativeM (.lr l r m))) (do (ops env n).add (.diag t) (← negativeM (.lr l r m)))
  exact (Sil.refl _).bind fun z hz => .of_eq (addDiagLr_eq n rfl (kind_negativeM z hz))

theorem subDiagLR_arr (hd : x.kind = some .diag) {l r m z : Mat K} (hl : l.arr) (hr : r.arr) (hm : m.kind = some .dense)
    (e : (do subtractM env (ops env n) x (← mkLR l r m)) = .ok z) : WbArr z := by
  obtain ⟨y, hy, e⟩ := bind_ok_iff.1 e
  obtain ⟨t, rfl⟩ := diag_of_kind hd
  obtain rfl := post_mkLR _ _ _ _ hy
  obtain ⟨w, hw, e⟩ := bind_ok_iff.1 (show (negativeM (.lr l r m) >>= fun w => (ops env n).add (.diag t) w) = .ok z from e)
  obtain ⟨m', hm', hw⟩ := bind_ok_iff.1 (show (negativeM m >>= fun m' => mkLR l r m') = .ok w from hw)
  obtain rfl := post_mkLR _ _ _ _ hw
  have hmm : m'.kind = some .dense := (kind_negativeM m' hm').trans hm
  cases n with
  | zero => cases e
  | succ n =>
    rw [stepAdd_am (k := .diag) (k' := .lr) rfl rfl] at e
    obtain ⟨_, _, e⟩ := bind_ok_iff.1 (show mkWB t l r m' = .ok z from e)
    obtain ⟨_, _, e⟩ := bind_ok_iff.1 e
    obtain ⟨_, _, e⟩ := bind_ok_iff.1 e
    cases e
    exact ⟨_, _, _, _, rfl, hl, hr, (arr_of_dense hmm).arrD⟩

theorem schur_sil (hk : LKinds env L) (h : LSil env W L) {d : Tensor K} {l r m : Mat K} (hl : l.arr) (hr : r.arr) (hm : m.arrD) :
    Sil (schurM (wops env n) W d l r m) (schurM (ops env n) L d l r m) ∧ ∀ x, schurM (ops env n) L d l r m = .ok x → x.kind = some .dense := by
  have im : ∀ {y : Mat K}, L.inv m = .ok y → y.isAM = false ∨ y.arrD := by
    intro y hy
    have := hk.inv _ _ hy
    cases m with
    | num t => left; cases y <;> first | rfl | simp [Mat.kind] at this
    | dense t => right; exact (arr_of_dense this).arrD
    | diag t => right; exact arrD_of_kind this
    | _ => exact hm.elim
  have sg : ∀ {y : Mat K}, y.isAM = false ∨ y.arrD → (kindC env y).single := by
    rintro y (hy | hy)
    · cases y <;> simp [Mat.isAM] at hy
      exact (kindC_num_single _).1
    · rcases hy.kindC (env := env) with h | h <;> rw [h] <;> trivial
  unfold schurM
  constructor
  · refine (h.inv (.diag d) True.intro).bind fun x hx => (mm3_sil n hr (arrD_of_kind (invDiag_kind hk hx)) hl).bind fun y hy => (h.inv _ hm.ofArr).bind fun z hz => ?_
    exact add_sil n (sg (im hz)) (mm3_dense hr (arrD_of_kind (invDiag_kind hk hx)) hl (isAM_of_kind (invDiag_kind hk hx)) hy)
  · intro w e
    obtain ⟨x, hx, e⟩ := bind_ok_iff.1 e
    obtain ⟨y, hy, e⟩ := bind_ok_iff.1 e
    obtain ⟨z, hz, e⟩ := bind_ok_iff.1 e
    exact dense_add (im hz) (mm3_dense hr (arrD_of_kind (invDiag_kind hk hx)) hl (isAM_of_kind (invDiag_kind hk hx)) hy) e

theorem pdSchur_sil (hk : LKinds env L) (h : LSil env W L) {d : Tensor K} {l r m : Mat K} (hl : l.arr) (hr : r.arr) (hm : m.arrD) :
    Sil (pdSchurM (wops env n) W d l r m) (pdSchurM (ops env n) L d l r m) ∧ ∀ x, pdSchurM (ops env n) L d l r m = .ok x → x.kind = some .dense := by
  have im : ∀ {y : Mat K}, L.pdInv m = .ok y → y.arrD := by
    intro y hy
    have := hk.pdInv m (by cases m <;> first | exact hm.elim | simp [Mat.kind]) _ hy
    cases m with
    | num t => exact (arr_of_dense this).arrD
    | dense t => exact (arr_of_dense this).arrD
    | diag t => exact arrD_of_kind this
    | _ => exact hm.elim
  have sg : ∀ {y : Mat K}, y.arrD → (kindC env y).single := by
    intro y hy
    rcases hy.kindC (env := env) with h | h <;> rw [h] <;> trivial
  unfold pdSchurM
  constructor
  · refine (h.inv (.diag d) True.intro).bind fun x hx => (mm3_sil n hr (arrD_of_kind (invDiag_kind hk hx)) hl).bind fun y hy => (h.pdInv _ hm.ofArr).bind fun z hz => ?_
    exact add_sil n (sg (im hz)) (mm3_dense hr (arrD_of_kind (invDiag_kind hk hx)) hl (isAM_of_kind (invDiag_kind hk hx)) hy)
  · intro w e
    obtain ⟨x, hx, e⟩ := bind_ok_iff.1 e
    obtain ⟨y, hy, e⟩ := bind_ok_iff.1 e
    obtain ⟨z, hz, e⟩ := bind_ok_iff.1 e
    exact dense_add (.inr (im hz)) (mm3_dense hr (arrD_of_kind (invDiag_kind hk hx)) hl (isAM_of_kind (invDiag_kind hk hx)) hy) e

theorem invWB_sil (hk : LKinds env L) (h : LSil env W L) {d : Tensor K} {l r m : Mat K} (hl : l.arr) (hr : r.arr) (hm : m.arrD) :
    Sil (invWB env (wops env n) W d l r m) (invWB env (ops env n) L d l r m) ∧ ∀ x, invWB env (ops env n) L d l r m = .ok x → WbArr x := by
  have hsch := schur_sil (n := n) (d := d) hk h hl hr hm
  unfold invWB
  constructor
  · refine (h.inv (.diag d) True.intro).bind fun x hx => ?_
    have hxd := arrD_of_kind (invDiag_kind hk hx)
    refine (Sil.of_eq (mm_arrD n hxd hl.arrD)).bind fun y hy => (Sil.of_eq (mm_arrD n hxd hr.arrD)).bind fun z hz => hsch.1.bind fun s hs => ?_
    exact (h.inv _ (arr_of_dense (hsch.2 s hs)).arrD.ofArr).bind fun si hsi => subDiagLR (invDiag_kind hk hx) _ _ _
  · intro w e
    obtain ⟨x, hx, e⟩ := bind_ok_iff.1 e
    have hxd := arrD_of_kind (invDiag_kind hk hx)
    obtain ⟨y, hy, e⟩ := bind_ok_iff.1 e
    obtain ⟨z, hz, e⟩ := bind_ok_iff.1 e
    obtain ⟨s, hs, e⟩ := bind_ok_iff.1 e
    obtain ⟨si, hsi, e⟩ := bind_ok_iff.1 e
    exact subDiagLR_arr (invDiag_kind hk hx) (arr_mm hxd hl.arrD (.inr hl) hy) (arr_mm hxd hr.arrD (.inr hr) hz) ((hk.inv _ _ hsi).trans (hsch.2 s hs)) e

theorem pdInvWB_sil (hk : LKinds env L) (h : LSil env W L) {d : Tensor K} {l r m : Mat K} (hl : l.arr) (hr : r.arr) (hm : m.arrD) :
    Sil (pdInvWB env (wops env n) W d l r m) (pdInvWB env (ops env n) L d l r m) ∧ ∀ x, pdInvWB env (ops env n) L d l r m = .ok x → WbArr x := by
  have hsch := pdSchur_sil (n := n) (d := d) hk h hl hr hm
  unfold pdInvWB
  constructor
  · refine (h.inv (.diag d) True.intro).bind fun x hx => ?_
    have hxd := arrD_of_kind (invDiag_kind hk hx)
    refine (Sil.of_eq (mm_arrD n hxd hl.arrD)).bind fun y hy => (Sil.of_eq (mm_arrD n hxd hr.arrD)).bind fun z hz => hsch.1.bind fun s hs => ?_
    exact (h.pdInv _ (arr_of_dense (hsch.2 s hs)).arrD.ofArr).bind fun si hsi => subDiagLR (invDiag_kind hk hx) _ _ _
  · intro w e
    obtain ⟨x, hx, e⟩ := bind_ok_iff.1 e
    have hxd := arrD_of_kind (invDiag_kind hk hx)
    obtain ⟨y, hy, e⟩ := bind_ok_iff.1 e
    obtain ⟨z, hz, e⟩ := bind_ok_iff.1 e
    obtain ⟨s, hs, e⟩ := bind_ok_iff.1 e
    obtain ⟨si, hsi, e⟩ := bind_ok_iff.1 e
    have hsi' := hk.pdInv s (by rw [hsch.2 s hs]; decide) _ hsi
    rw [hsch.2 s hs] at hsi'
    exact subDiagLR_arr (invDiag_kind hk hx) (arr_mm hxd hl.arrD (.inr hl) hy) (arr_mm hxd hr.arrD (.inr hr) hz) hsi' e

/-- An array or a matrix that holds a single array. -/
def Sgl (a : Mat K) : Prop := a.isAM = false ∨ ∃ k, a.kind = some k ∧ k.single

/-- Dense form of an array or a matrix that holds a single array. -/
theorem denseOf_eq (n : ℕ) {a : Mat K} (h : Sgl a) : (wops env n).dense a = (ops env n).dense a := by
  rcases h with h | ⟨k, h, hk⟩
  · cases a <;> simp [Mat.isAM] at h
    exact numDense_eq n _
  · exact dense_eq n h hk

theorem eye_kind {a x : Mat K} (h : eyeM a = .ok x) : x.kind = some .diag := by
  unfold eyeM at h
  obtain ⟨_, _, h⟩ := bind_ok_iff.1 h
  obtain ⟨_, _, h⟩ := bind_ok_iff.1 h
  obtain ⟨_, _, h⟩ := bind_ok_iff.1 h
  exact kind_mkDiag x h

theorem sgl_bb {s : Shp} {a x : Mat K} (ha : Sgl a) (h : broadcastBatchTo s a = .ok x) : Sgl x := by
  rcases ha with ha | ⟨k, ha, hk⟩
  · cases a <;> simp [Mat.isAM] at ha
    obtain ⟨_, _, h⟩ := bind_ok_iff.1 h
    cases h
    exact .inl rfl
  · exact .inr ⟨k, kind_broadcastBatchTo ha x h, hk⟩

theorem sgl_align {a b : Mat K} {p : Mat K × Mat K} (ha : Sgl a) (hb : Sgl b) (h : alignBatch2 a b = .ok p) : Sgl p.1 ∧ Sgl p.2 := by
  obtain ⟨_, _, h⟩ := bind_ok_iff.1 h
  obtain ⟨_, h1, h⟩ := bind_ok_iff.1 h
  obtain ⟨_, h2, h⟩ := bind_ok_iff.1 h
  cases h
  exact ⟨sgl_bb ha h1, sgl_bb hb h2⟩

theorem solveTri_sil (lower : Bool) (t : Tensor K) {b : Mat K} (hb : Sgl b) : Sil (solveTri lin (wops env n) lower t b) (solveTri lin (ops env n) lower t b) := by
  unfold solveTri
  refine (Sil.refl _).bind fun p hp => ?_
  have h := sgl_align (.inl rfl) hb hp
  rw [denseOf_eq n h.1, denseOf_eq n h.2]
  exact .refl _

theorem solveDense_sil {a b : Mat K} (ha : Sgl a) (hb : Sgl b) : Sil (solveDense lin (wops env n) a b) (solveDense lin (ops env n) a b) := by
  unfold solveDense
  refine (Sil.refl _).bind fun p hp => ?_
  have h := sgl_align ha hb hp
  rw [denseOf_eq n h.1, denseOf_eq n h.2]
  exact .refl _

theorem Mat.arr.sgl {a : Mat K} (h : a.arr) : Sgl a := by
  cases a with
  | num t => exact .inl rfl
  | dense t => exact .inr ⟨_, rfl, trivial⟩
  | _ => exact h.elim

theorem convert_arr {a : Mat K} (h : a.arr) : (convertAM env a).kind = some .dense := by rw [kind_convertAM env a, h.kindC]

theorem solve_sil (hk : LKinds env L) (h : LSil env W L) {a b : Mat K} (ha : a.arrD ∨ a.kind = some .lt ∨ a.kind = some .ut ∨ WbArr a) (hb : b.arr) :
    Sil (wStepSolve env lin (wops env n) W a b) (stepSolve env lin (ops env n) L a b) := by
  rcases stepSolve_am (env := env) (lin := lin) (B := ops env n) (L := L) a b with ⟨s, t, rfl, rfl⟩ | h1
  · exact .refl _
  rcases wStepSolve_am (env := env) (lin := lin) (B := wops env n) (L := W) a b with ⟨s, t, rfl, rfl⟩ | h2
  · exact .refl _
  rw [h1, h2]
  have hb' := convert_arr (env := env) hb
  have ha' : (convertAM env a).arrD ∨ (convertAM env a).kind = some .lt ∨ (convertAM env a).kind = some .ut ∨ WbArr (convertAM env a) := by
    cases a with
    | num t => left; exact (arr_of_dense (convert_arr (a := .num t) (ha.elim id (by simp [Mat.kind, WbArr])))).arrD
    | _ => exact ha
  clear h1 h2 ha hb
  generalize convertAM env a = a at *
  generalize convertAM env b = b at *
  cases b <;> simp only [Mat.kind, Option.some.injEq, reduceCtorEq] at hb'
  rename_i tb
  have sb : Sgl (.dense tb : Mat K) := .inr ⟨.dense, rfl, trivial⟩
  cases a with
  | num t => exact (Sil.refl (x := (pure () : E Unit))).bind fun _ _ => solveDense_sil (.inl rfl) sb
  | dense t => exact (Sil.refl (x := (pure () : E Unit))).bind fun _ _ => solveDense_sil (.inr ⟨.dense, rfl, trivial⟩) sb
  | lt t => exact (Sil.refl (x := (pure () : E Unit))).bind fun _ _ => solveTri_sil _ _ sb
  | ut t => exact (Sil.refl (x := (pure () : E Unit))).bind fun _ _ => solveTri_sil _ _ sb
  | diag t => exact (h.inv (.diag t) True.intro).bind fun x hx => .of_eq (mm_arrD n (arrD_of_kind (invDiag_kind hk hx)) (b := .dense tb) True.intro)
  | wb d l r m =>
    have hw : l.arr ∧ r.arr ∧ m.arrD := by
      rcases ha' with h | h | h | ⟨_, _, _, _, h, h'⟩
      · exact h.elim
      · simp [Mat.kind] at h
      · simp [Mat.kind] at h
      · cases h; exact h'
    refine (h.inv (.wb d l r m) hw).bind fun x hx => ?_
    obtain ⟨_, _, _, _, rfl, h1, h2, h3⟩ := h.invWB _ _ _ _ hw.1 hw.2.1 hw.2.2 x hx
    exact mmWB_sil n h1 h2 h3 rfl
  | _ => rcases ha' with h | h | h | ⟨_, _, _, _, h, _⟩ <;> first | exact h.elim | cases h

theorem arr_of_mem {r : Mat K} {k : Kind} (hk : k = .diag ∨ k = .lt ∨ k = .ut) (h : r.kind ∈ solveOut k .dense) : r.kind = some .dense := by
  rcases hk with rfl | rfl | rfl <;> simpa [solveOut, mmOut] using h

theorem cholSolve_sil (hk : LKinds env L) (h : LSil env W L) {a b : Mat K} (ha : a.kind = some .diag ∨ a.kind = some .lt ∨ a.kind = some .ut) (hb : b.arr) :
    Sil (stepCholSolve env lin W a b) (stepCholSolve env lin L a b) := by
  have key : ∀ b' : Mat K, b'.kind = some .dense → Sil (cholSolveTri W a b') (cholSolveTri L a b') := by
    intro b' hb'
    have hr : TriRk b' := (arr_of_dense hb').triRk
    unfold cholSolveTri
    have ha1 : a.arrD ∨ a.kind = some .lt ∨ a.kind = some .ut ∨ WbArr a := by
      rcases ha with h | h | h
      · exact .inl (arrD_of_kind h)
      · exact .inr (.inl h)
      · exact .inr (.inr (.inl h))
    refine (h.solve a b' ha1 (arr_of_dense hb')).bind fun x hx => (Sil.refl _).bind fun a' ha' => h.solve a' x ?_ ?_
    · have h2 : ∀ k, a.kind = some k → a'.kind = some (trKind k) := fun k hk => by
        have := kind_trM (t := true) hk a' ha'
        simpa using this
      rcases ha with h | h | h
      · exact .inl (arrD_of_kind (h2 _ h))
      · exact .inr (.inr (.inl (h2 _ h)))
      · exact .inr (.inl (h2 _ h))
    · have hx' := hk.solve a b' (.inr (isAM_of_kind hb')) hr x hx
      refine arr_of_dense ?_
      rcases ha with h | h | h <;> rw [kindC_am h, kindC_am hb'] at hx' <;> exact arr_of_mem (by simp) hx'
  have hb' := convert_arr (env := env) hb
  unfold stepCholSolve
  rcases ha with h | h | h <;> cases a <;> simp only [Mat.kind, Option.some.injEq, reduceCtorEq] at h <;> exact key _ hb'

theorem rk_diagC (t : Tensor K) : (diagC t).rank ≠ 0 := by simp [Tensor.rank, diagC]

theorem pdInv_sil (hk : LKinds env L) (h : LSil env W L) {a : Mat K} (ha : a.ofArr) : Sil (stepPdInv env (wops env n) W a) (stepPdInv env (ops env n) L a) := by
  have key : ∀ a' : Mat K, a'.kind = some .dense → Sil (do let ch ← W.chol a'; let id ← (wops env n).dense (← eyeM a'); W.cholSolve ch (.num id))
      (do let ch ← L.chol a'; let id ← (ops env n).dense (← eyeM a'); L.cholSolve ch (.num id)) := by
    intro a' ha'
    refine (h.chol a' (arr_of_dense ha').arrD.ofArrC).bind fun x hx => (Sil.refl _).bind fun y hy => ?_
    have hy' := eye_kind hy
    refine (Sil.of_eq (dense_eq n hy' trivial)).bind fun z hz => h.cholSolve x _ ?_ ?_
    · have := hk.chol a' (by rw [ha']; decide) x hx
      rw [ha'] at this
      exact .inr (.inl this)
    · obtain ⟨t, rfl⟩ := diag_of_kind hy'
      cases n with
      | zero => cases hz
      | succ n => cases hz; exact rk_diagC t
  cases a with
  | diag d => exact h.inv (.diag d) True.intro
  | wb d l r m => exact (pdInvWB_sil hk h ha.1 ha.2.1 ha.2.2).1
  | kron l r => exact (h.pdInv l ha.1).bind fun _ _ => (h.pdInv r ha.2).bind fun _ _ => .refl _
  | num t => exact key _ (convert_arr (a := .num t) ha)
  | dense t => exact key _ rfl
  | _ => exact ha.elim

theorem chol_sil (hk : LKinds env L) (h : LSil env W L) {a : Mat K} (ha : a.ofArrC) : Sil (wStepChol lin (wops env n) W a) (stepChol lin (ops env n) L a) := by
  cases a with
  | lr l r m =>
    refine (Sil.refl _).bind fun _ _ => (h.chol m ha.2.ofArrC).bind fun x hx => .of_eq ?_
    have hx' := hk.chol m (by have := ha.2; cases m <;> first | exact this.elim | simp [Mat.kind]) x hx
    have hd : kindC env l = .dense := ha.1.kindC
    refine mm_sil n (by rw [hd]; trivial) ?_ ha.1.triRk ?_ (not_mixTri (.inl hd))
    · cases m with
      | num t => cases x <;> simp only [Mat.kind, cholOut, reduceCtorEq] at hx'; exact (kindC_num_single _).1
      | dense t => rw [kindC_am hx']; trivial
      | diag t => rw [kindC_am hx']; trivial
      | _ => exact ha.2.elim
    · cases m with
      | num t => cases x <;> simp only [Mat.kind, cholOut, reduceCtorEq] at hx'; exact True.intro
      | dense t => exact h.cholRk t x hx
      | diag t => exact (arrD_of_kind hx').triRk
      | _ => exact ha.2.elim
  | kron l r => exact (h.chol l ha.1).bind fun _ _ => (h.chol r ha.2).bind fun _ _ => .refl _
  | wb d l r m => exact ha.elim
  | _ => exact .refl _

theorem logdetTri_sil {a : Mat K} (ha : a.kind = some .diag ∨ a.kind = some .lt ∨ a.kind = some .ut) :
    Sil (stepLogdet lin (wops env n) W a) (stepLogdet lin (ops env n) L a) := by
  have key : Sil (logdetTri lin (wops env n) a) (logdetTri lin (ops env n) a) := by
    unfold logdetTri
    rcases ha with h | h | h <;> rw [diag_eq n h trivial] <;> exact .refl _
  rcases ha with h | h | h <;> cases a <;> simp only [Mat.kind, Option.some.injEq, reduceCtorEq] at h <;> exact key

theorem logdet_sil (hk : LKinds env L) (h : LSil env W L) {a : Mat K} (ha : a.ofArr) : Sil (stepLogdet lin (wops env n) W a) (stepLogdet lin (ops env n) L a) := by
  cases a with
  | num t => exact .refl _
  | diag t => exact logdetTri_sil (.inl rfl)
  | dense t =>
    refine (h.chol (.dense t) True.intro).bind fun x hx => (h.logdetTri x (.inr (.inl ?_))).bind fun _ _ => .refl _
    exact hk.chol (.dense t) (by simp [Mat.kind]) x hx
  | wb d l r m =>
    have hs := pdSchur_sil (n := n) (d := d) hk h ha.1 ha.2.1 ha.2.2
    refine (h.logdet (.diag d) True.intro).bind fun _ _ => (h.logdet m ha.2.2.ofArr).bind fun _ _ => hs.1.bind fun s hs' => ?_
    exact (h.logdet s (arr_of_dense (hs.2 s hs')).arrD.ofArr).bind fun _ _ => .refl _
  | kron l r =>
    refine (Sil.refl _).bind fun _ _ => (Sil.refl _).bind fun _ _ => (Sil.refl _).bind fun _ _ => (Sil.refl _).bind fun _ _ => ?_
    exact (h.logdet l ha.1).bind fun _ _ => (Sil.refl _).bind fun _ _ => (h.logdet r ha.2).bind fun _ _ => .refl _
  | _ => exact ha.elim

theorem num_mm (n : ℕ) (ta tb : Bool) (s t : Tensor K) : (wops env n).matmul ta tb (.num s) (.num t) = (ops env n).matmul ta tb (.num s) (.num t) ∧
    ∀ x, (ops env n).matmul ta tb (.num s) (.num t) = .ok x → ∃ u, x = .num u := by
  cases n with
  | zero => exact ⟨rfl, fun _ h => by cases h⟩
  | succ n =>
    refine ⟨rfl, fun x h => ?_⟩
    obtain ⟨u, _, h⟩ := bind_ok_iff.1 (show (do return Mat.num (← nMatmul ta tb s t) : E (Mat K)) = .ok x from h)
    cases h; exact ⟨_, rfl⟩

theorem rootNum_sil (t : Tensor K) : Sil (rootNum lin (wops env n) t) (rootNum lin (ops env n) t) := by
  unfold rootNum matmul3
  refine (Sil.refl _).bind fun _ _ => (Sil.refl _).bind fun _ _ => (Sil.refl _).bind fun _ _ => ?_
  refine (Sil.refl _).bind fun _ _ => (Sil.refl _).bind fun _ _ => (Sil.refl _).bind fun _ _ => Sil.ite ?_ ?_
  · refine (Sil.of_eq (num_mm n _ _ _ _).1).bind fun x hx => ?_
    obtain ⟨u, rfl⟩ := (num_mm n _ _ _ _).2 x hx
    exact .of_eq (num_mm n _ _ _ _).1
  · refine (Sil.of_eq (num_mm n _ _ _ _).1).bind fun x hx => ?_
    obtain ⟨u, rfl⟩ := (num_mm n _ _ _ _).2 x hx
    exact .of_eq (num_mm n _ _ _ _).1

theorem root_sil (hk : LKinds env L) (h : LSil env W L) {a : Mat K} (ha : a.ofArrR) : Sil (wStepRoot lin (wops env n) W a) (stepRoot lin (ops env n) L a) := by
  cases a with
  | num t => exact rootNum_sil t
  | zero bt r c => exact .refl _
  | dense t =>
    refine (h.root (.num t) True.intro).bind fun x hx => ?_
    have := hk.root (.num t) x hx
    cases x <;> simp only [Mat.kind, rootOut, reduceCtorEq] at this
    rw [numDense_eq]
    exact .refl _
  | diag t => exact (Sil.refl _).bind fun _ _ => h.chol (.diag t) True.intro
  | const t r c => exact (Sil.refl _).bind fun _ _ => h.chol (.const t r c) True.intro
  | kron l r => exact (h.root l ha.1).bind fun _ _ => (h.root r ha.2).bind fun _ _ => .refl _
  | _ => exact ha.elim

theorem inv_sil (hk : LKinds env L) (h : LSil env W L) {a : Mat K} (ha : a.ofArr) : Sil (stepInv env lin (wops env n) W a) (stepInv env lin (ops env n) L a) := by
  cases a with
  | wb d l r m => exact (invWB_sil hk h ha.1 ha.2.1 ha.2.2).1
  | kron l r => exact (h.inv l ha.1).bind fun _ _ => (h.inv r ha.2).bind fun _ _ => .refl _
  | _ => exact .refl _

end

theorem wlops_sil (c : Cfg K) (lin : LinEnv K) (n m : ℕ) : LSil c.code (wlops c.code lin (wops c.code n) m) (lops c.code lin (ops c.code n) m) := by
  induction m with
  | zero =>
    refine ⟨fun _ _ => .refl _, fun _ _ _ _ _ _ _ _ h => ?_, fun _ _ => .refl _, fun _ _ _ _ _ _ _ _ h => ?_, fun _ _ => .refl _,
      fun _ _ h => ?_, fun _ _ => .refl _, fun _ _ _ _ => .refl _, fun _ _ _ _ => .refl _, fun _ _ => .refl _, fun _ _ => .refl _⟩ <;> cases h
  | succ m ih =>
    have hk := c.lkinds lin n m
    refine ⟨fun a ha => inv_sil hk ih ha, fun d l r m' hl hr hm x hx => (invWB_sil hk ih hl hr hm).2 x hx, fun a ha => pdInv_sil hk ih ha,
      fun d l r m' hl hr hm x hx => (pdInvWB_sil hk ih hl hr hm).2 x hx, fun a ha => chol_sil hk ih ha, fun t x hx => ?_, fun a ha => root_sil hk ih ha,
      fun a b ha hb => solve_sil hk ih ha hb, fun a b ha hb => cholSolve_sil hk ih ha hb, fun a ha => logdet_sil hk ih ha, fun a ha => logdetTri_sil ha⟩
    obtain ⟨_, _, hx⟩ := bind_ok_iff.1 (show (do assertSquare (.dense t); mkLT (← lin.chol t)) = .ok x from hx)
    obtain ⟨u, _, hx⟩ := bind_ok_iff.1 hx
    obtain ⟨_, h2, hx⟩ := bind_ok_iff.1 hx
    cases hx
    have : 2 ≤ u.rank := by simpa using h2
    show u.rank ≠ 0
    omega

theorem mmWB_arr (n : ℕ) {ta tb : Bool} {x b : Mat K} (hx : WbArr x) (hb : b.arr) :
    Sil ((wops env n).matmul ta tb x b) ((ops env n).matmul ta tb x b) ∧ ∀ y, (ops env n).matmul ta tb x b = .ok y → y.kind = some .dense := by
  obtain ⟨d, l, r, m, rfl, hl, hr, hm⟩ := hx
  have hab : (Mat.wb d l r m).isAM = true ∨ b.isAM = true := .inl rfl
  constructor
  · rw [wops_matmul_convert n hab, ops_matmul_convert n hab]
    exact mmWB_sil n hl hr hm (convert_arr hb)
  · intro y h
    obtain ⟨k, hk, e⟩ := ops_mmKinds env n ta tb _ b hab True.intro hb.triRk y h
    rw [hb.kindC, kindC_am (k := .wb) rfl] at hk
    rw [e]
    simpa [mmOut] using hk
theorem mmArrWB (n : ℕ) {ta tb : Bool} {x b : Mat K} (hx : WbArr x) (hb : b.arr) :
    Sil ((wops env n).matmul ta tb b x) ((ops env n).matmul ta tb b x) ∧ ∀ y, (ops env n).matmul ta tb b x = .ok y → y.kind = some .dense := by
  obtain ⟨d, l, r, m, rfl, hl, hr, hm⟩ := hx
  have hab : b.isAM = true ∨ (Mat.wb d l r m).isAM = true := .inr rfl
  constructor
  · rw [wops_matmul_convert n hab, ops_matmul_convert n hab]
    exact mmAmWB_sil n hl hr hm (convert_arr hb)
  · intro y h
    obtain ⟨k, hk, e⟩ := ops_mmKinds env n ta tb b _ hab hb.triRk True.intro y h
    rw [hb.kindC, kindC_am (k := .wb) rfl] at hk
    rw [e]
    simpa [mmOut] using hk

end

/-! ### The theorems -/

/-- C56.  The inverse of an array, a Dense or Diagonal matrix, a Woodbury matrix built from arrays or a Kronecker product of these never warns. -/
theorem C56_inv_quiet (c : Cfg K) (lin : LinEnv K) {a r : Mat K} (ha : a.ofArr) (h : LReturns c lin (fun _ L => L.inv a) r) : LQuiet c lin (fun _ L => L.inv a) r := by
  obtain ⟨m, n, h⟩ := h
  exact ⟨n, m, (wlops_sil c lin n m).inv a ha r h⟩

/-- C56.  The same for the inverse of a positive-definite matrix; for arrays and Dense matrices the identity is converted to an array beforehand for this reason. -/
theorem C56_pdinv_quiet (c : Cfg K) (lin : LinEnv K) {a r : Mat K} (ha : a.ofArr) (h : LReturns c lin (fun _ L => L.pdInv a) r) : LQuiet c lin (fun _ L => L.pdInv a) r := by
  obtain ⟨m, n, h⟩ := h
  exact ⟨n, m, (wlops_sil c lin n m).pdInv a ha r h⟩

/-- C56.  The Cholesky factor warns for Woodbury matrices (`C56_cholesky_woodbury`), but never for arrays, Zero, Dense, Diagonal and Constant matrices, low-rank
matrices built from arrays and Kronecker products of these. -/
theorem C56_cholesky_quiet (c : Cfg K) (lin : LinEnv K) {a r : Mat K} (ha : a.ofArrC) (h : LReturns c lin (fun _ L => L.chol a) r) : LQuiet c lin (fun _ L => L.chol a) r := by
  obtain ⟨m, n, h⟩ := h
  exact ⟨n, m, (wlops_sil c lin n m).chol a ha r h⟩

/-- C56.  The log-determinant never warns for the matrices of `C56_inv_quiet`: for a Woodbury matrix it goes through the Schur complement, not the dense matrix. -/
theorem C56_logdet_quiet (c : Cfg K) (lin : LinEnv K) {a : Mat K} {r : Tensor K} (ha : a.ofArr) (h : LReturns c lin (fun _ L => L.logdet a) r) : LQuiet c lin (fun _ L => L.logdet a) r := by
  obtain ⟨m, n, h⟩ := h
  exact ⟨n, m, (wlops_sil c lin n m).logdet a ha r h⟩

/-- C56.  The root of an array, a Zero, Dense, Diagonal or Constant matrix or a Kronecker product of these never warns. -/
theorem C56_root_quiet (c : Cfg K) (lin : LinEnv K) {a r : Mat K} (ha : a.ofArrR) (h : LReturns c lin (fun _ L => L.root a) r) : LQuiet c lin (fun _ L => L.root a) r := by
  obtain ⟨m, n, h⟩ := h
  exact ⟨n, m, (wlops_sil c lin n m).root a ha r h⟩

/-- C56.  Solving for an array never warns when the matrix is an array, Dense, Diagonal, triangular or a Woodbury matrix built from arrays. -/
theorem C56_solve_quiet (c : Cfg K) (lin : LinEnv K) {a b r : Mat K} (ha : a.arrD ∨ a.kind = some .lt ∨ a.kind = some .ut ∨ (∃ d l r m, a = .wb d l r m) ∧ a.ofArr) (hb : b.arr)
    (h : LReturns c lin (fun _ L => L.solve a b) r) : LQuiet c lin (fun _ L => L.solve a b) r := by
  obtain ⟨m, n, h⟩ := h
  refine ⟨n, m, (wlops_sil c lin n m).solve a b ?_ hb r h⟩
  refine ha.imp_right (Or.imp_right (Or.imp_right ?_))
  rintro ⟨⟨d, l, r, m, rfl⟩, h⟩
  exact ⟨d, l, r, m, rfl, h⟩

/-- C56.  The quadratic form `bᵀ a⁻¹ c` of arrays never warns when `a` is Dense, Diagonal or a Woodbury matrix built from arrays. -/
theorem C56_iqf_quiet (c : Cfg K) (lin : LinEnv K) {same : Bool} {a x y r : Mat K} (ha : a.kind = some .dense ∨ a.kind = some .diag ∨ (∃ d l r m, a = .wb d l r m) ∧ a.ofArr)
    (hx : x.arr) (hy : y.arr) (h : LReturns c lin (fun B L => iqfM B L same a x y) r) : LQuiet c lin (fun B L => iqfM B L same a x y) r := by
  obtain ⟨m, n, h⟩ := h
  refine ⟨n, m, ?_⟩
  revert r
  show Sil _ _
  have hs := wlops_sil c lin n m
  have hk := c.lkinds lin n m
  have key : a.kind = some .dense ∨ a.kind = some .diag → Sil
      (do let ch ← (wlops c.code lin (wops c.code n) m).chol a
          let cb ← (wlops c.code lin (wops c.code n) m).solve ch x
          let cc ← if same then pure cb else (wlops c.code lin (wops c.code n) m).solve ch y
          (wops c.code n).matmul true false cb cc)
      (do let ch ← (lops c.code lin (ops c.code n) m).chol a
          let cb ← (lops c.code lin (ops c.code n) m).solve ch x
          let cc ← if same then pure cb else (lops c.code lin (ops c.code n) m).solve ch y
          (ops c.code n).matmul true false cb cc) := by
    intro ha
    refine (hs.chol a (ha.elim (fun h => (arr_of_dense h).arrD.ofArrC) fun h => (arrD_of_kind h).ofArrC)).bind fun ch hch => ?_
    have hc := hk.chol a (by rcases ha with h | h <;> rw [h] <;> decide) ch hch
    have h1 : ch.arrD ∨ ch.kind = some .lt ∨ ch.kind = some .ut ∨ WbArr ch := by
      rcases ha with h | h <;> rw [h] at hc
      · exact .inr (.inl hc)
      · exact .inl (arrD_of_kind hc)
    have h2 : ∀ {z w : Mat K}, z.arr → (lops c.code lin (ops c.code n) m).solve ch z = .ok w → w.arr := by
      intro z w hz hw
      have h3 := hk.solve ch z (.inl (by rcases ha with h | h <;> rw [h] at hc <;> exact isAM_of_kind hc)) hz.triRk w hw
      refine arr_of_dense ?_
      rw [hz.kindC] at h3
      rcases ha with h | h <;> rw [h] at hc <;> rw [kindC_am hc] at h3 <;> exact arr_of_mem (by simp) h3
    refine (hs.solve ch x h1 hx).bind fun cb hcb => ?_
    cases same with
    | true => exact (Sil.refl _).bind fun cc hcc => by cases hcc; exact .of_eq (mm_arrD n (h2 hx hcb).arrD (h2 hx hcb).arrD)
    | false => exact (hs.solve ch y h1 hy).bind fun cc hcc => .of_eq (mm_arrD n (h2 hx hcb).arrD (h2 hy hcc).arrD)
  cases a with
  | wb d l r' m' =>
    have hw : l.arr ∧ r'.arr ∧ m'.arrD := by
      rcases ha with h | h | h
      · simp [Mat.kind] at h
      · simp [Mat.kind] at h
      · exact h.2
    refine (hs.pdInv (.wb d l r' m') hw).bind fun z hz => ?_
    have hz' := hs.pdInvWB _ _ _ _ hw.1 hw.2.1 hw.2.2 z hz
    unfold matmul3
    refine (Sil.refl _).bind fun _ _ => (Sil.refl _).bind fun _ _ => (Sil.refl _).bind fun _ _ => Sil.ite ?_ ?_
    · exact (mmArrWB n hz' hx).1.bind fun u hu => .of_eq (mm_arrD n (arr_of_dense ((mmArrWB n hz' hx).2 u hu)).arrD hy.arrD)
    · exact (mmWB_arr n hz' hy).1.bind fun u hu => .of_eq (mm_arrD n hx.arrD (arr_of_dense ((mmWB_arr n hz' hy).2 u hu)).arrD)
  | dense t => exact key (.inl rfl)
  | diag t => exact key (.inr rfl)
  | _ => rcases ha with h | h | ⟨⟨_, _, _, _, h⟩, _⟩ <;> cases h

/-- C56.  Solving with a triangular matrix for a structured right-hand side warns, unless the right-hand side is Zero. -/
theorem C56_solve_triangular (c : Cfg K) (lin : LinEnv K) {a b : Mat K} (ha : a.kind = some .lt ∨ a.kind = some .ut) (hb : b.structured = true) (hz : b.kind ≠ some .zero) :
    LWarns c lin (fun _ L => L.solve a b) := by
  refine ⟨0, 1, ?_⟩
  rcases ha with h | h <;> cases a <;> simp only [Mat.kind, Option.some.injEq, reduceCtorEq] at h <;>
    cases b <;> first | exact absurd rfl hz | rfl | cases hb

/-! ### The hypotheses can be met -/

theorem Ex.P2_arr : (Mat.num (Ex.m 2 1 [1, 2]) : Mat ℚ).arr ∧ (Mat.num (Ex.m 2 1 [1, 2]) : Mat ℚ).arr ∧ (Mat.num (Ex.m 1 1 [1/4]) : Mat ℚ).arrD :=
  ⟨by simp [Mat.arr, Ex.m, Tensor.rank, ofFn], by simp [Mat.arr, Ex.m, Tensor.rank, ofFn], by simp [Mat.arrD, Mat.arr, Ex.m, Tensor.rank, ofFn]⟩
example : Ex.A2.ofArr ∧ Ex.P2.ofArr ∧ Ex.K4.ofArr := ⟨True.intro, Ex.P2_arr, ⟨True.intro, True.intro⟩⟩
example : ∃ r, LQuiet Ex.cfg Ex.lin (fun _ L => L.inv Ex.P2) r := by
  obtain ⟨r, h, _⟩ := Ex.lmeets (LCalls.inv Ex.P2) (n := 8) (m := 8) (by decide +kernel)
  exact ⟨r, C56_inv_quiet _ _ (show Mat.ofArr _ from Ex.P2_arr) h⟩
example : ∃ r, LQuiet Ex.cfg Ex.lin (fun _ L => L.pdInv Ex.A2) r := by
  obtain ⟨r, h, _⟩ := Ex.lmeets (LCalls.pdInv Ex.A2) (n := 8) (m := 8) (by decide +kernel)
  exact ⟨r, C56_pdinv_quiet _ _ True.intro h⟩
example : ∃ r, LQuiet Ex.cfg Ex.lin (fun _ L => L.chol Ex.A2) r := by
  obtain ⟨r, h, _⟩ := Ex.lmeets (LCalls.chol Ex.A2) (n := 8) (m := 8) (by decide +kernel)
  exact ⟨r, C56_cholesky_quiet _ _ True.intro h⟩
example : ∃ r, LQuiet Ex.cfg Ex.lin (fun _ L => L.logdet Ex.P2) r := by
  obtain ⟨r, h, _⟩ := Ex.lmeets (LCalls.logdet Ex.P2) (n := 8) (m := 8) (by decide +kernel)
  exact ⟨r, C56_logdet_quiet _ _ (show Mat.ofArr _ from Ex.P2_arr) h⟩
example : ∃ r, LQuiet Ex.cfg Ex.lin (fun _ L => L.root (.diag (Ex.v [4, 9]))) r := by
  obtain ⟨r, h, _⟩ := Ex.lmeets (LCalls.root (.diag (Ex.v [4, 9]))) (n := 8) (m := 8) (by decide +kernel)
  exact ⟨r, C56_root_quiet _ _ True.intro h⟩
example : ∃ r, LQuiet Ex.cfg Ex.lin (fun _ L => L.solve Ex.F2 Ex.B2) r := by
  obtain ⟨r, h, _⟩ := Ex.lmeets (LCalls.solve Ex.F2 Ex.B2) (n := 8) (m := 8) (by decide +kernel)
  exact ⟨r, C56_solve_quiet _ _ (.inr (.inl rfl)) (by simp [Ex.B2, Mat.arr]) h⟩
example : ∃ r, LQuiet Ex.cfg Ex.lin (fun B L => iqfM B L true Ex.P2 Ex.B2 Ex.B2) r := by
  obtain ⟨r, h, _⟩ := Ex.lmeets (LCalls.iqf true Ex.P2 Ex.B2 Ex.B2) (n := 8) (m := 8) (by decide +kernel)
  have hb : Ex.B2.arr := by simp [Ex.B2, Mat.arr]
  exact ⟨r, C56_iqf_quiet _ _ (.inr (.inr ⟨⟨_, _, _, _, rfl⟩, Ex.P2_arr⟩)) hb hb h⟩
/-- A root that is Dense although the matrix is low-rank, with a warning. -/
example : (∃ r, LReturns Ex.cfg Ex.lin (fun _ L => L.root (.wb (Ex.v [1, 1]) (.num (Ex.m 2 1 [0, 0])) (.num (Ex.m 2 1 [0, 0])) (.num (Ex.m 1 1 [1])))) r) ∧
    LWarns Ex.cfg Ex.lin (fun _ L => L.root (.wb (Ex.v [1, 1]) (.num (Ex.m 2 1 [0, 0])) (.num (Ex.m 2 1 [0, 0])) (.num (Ex.m 1 1 [1])))) := by
  obtain ⟨r, h, _⟩ := Ex.lmeets (LCalls.root (.wb (Ex.v [1, 1]) (.num (Ex.m 2 1 [0, 0])) (.num (Ex.m 2 1 [0, 0])) (.num (Ex.m 1 1 [1])))) (n := 8) (m := 8) (by decide +kernel)
  refine ⟨⟨r, h⟩, C56_root _ _ rfl h ?_⟩
  exact C51_root _ _ h
/-- Solving a triangular system for a Diagonal matrix: Dense, with a warning. -/
example : (∃ r, LReturns Ex.cfg Ex.lin (fun _ L => L.solve Ex.F2 (.diag (Ex.v [1, 2]))) r) ∧ LWarns Ex.cfg Ex.lin (fun _ L => L.solve Ex.F2 (.diag (Ex.v [1, 2]))) := by
  obtain ⟨r, h, _⟩ := Ex.lmeets (LCalls.solve Ex.F2 (.diag (Ex.v [1, 2]))) (n := 8) (m := 8) (by decide +kernel)
  exact ⟨⟨r, h⟩, C56_solve_triangular _ _ (.inl rfl) rfl (by simp [Mat.kind])⟩
example : (∃ r, LReturns Ex.cfg Ex.lin (fun _ L => L.chol (.wb (Ex.v [3, 9]) (.num (Ex.m 2 1 [1, 0])) (.num (Ex.m 2 1 [1, 0])) (.num (Ex.m 1 1 [1])))) r) ∧ LWarns Ex.cfg Ex.lin (fun _ L => L.chol (.wb (Ex.v [3, 9]) (.num (Ex.m 2 1 [1, 0])) (.num (Ex.m 2 1 [1, 0])) (.num (Ex.m 1 1 [1])))) := by
  refine ⟨?_, C56_cholesky_woodbury _ _ _ _ _ _⟩
  obtain ⟨r, h, _⟩ := Ex.lmeets (LCalls.chol (.wb (Ex.v [3, 9]) (.num (Ex.m 2 1 [1, 0])) (.num (Ex.m 2 1 [1, 0])) (.num (Ex.m 1 1 [1])))) (n := 8) (m := 8) (by decide +kernel)
  exact ⟨r, h⟩

end Verif
