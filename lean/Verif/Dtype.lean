/-
Data types (C41): matrices whose arrays carry a data type, `B.dtype`, `B.cast`, and the constructors `B.zero`, `B.one`, `B.zeros`,
`B.ones`, `B.eye`, `B.fill_diag` of the dtype and shape of a matrix.
-/
import Verif.Constr
import Verif.LinChol
import Mathlib.Order.Bounds.Basic

set_option linter.unusedSectionVars false
set_option linter.unusedSimpArgs false

namespace Verif

variable {K D : Type}

/-- An array with a data type (`B.dtype` of a backend tensor is an attribute of the tensor). -/
structure TT (K D : Type) [Zero K] where
  dt : D
  t : Tensor K

/-- The classes of `matrix/` with the data types of their arrays; `Zero` stores its own, `constant.py` 29-37. Compare `Mat`. -/
inductive TMat (K D : Type) [Zero K] where
  | num (t : TT K D)
  | zero (d : D) (bt : Shp) (r c : ℕ)
  | dense (t : TT K D)
  | diag (t : TT K D)
  | const (t : TT K D) (r c : ℕ)
  | lt (t : TT K D)
  | ut (t : TT K D)
  | lr (l r m : TMat K D)
  | wb (d : TT K D) (l r m : TMat K D)
  | kron (l r : TMat K D)
  | tiled (n : ℕ) (blk : Fin n → TMat K D) (reps : Fin n → ℕ) (axis : Int)

/-- Forget the data types. -/
def TMat.mat [Zero K] : TMat K D → Mat K
  | .num t => .num t.t
  | .zero _ bt r c => .zero bt r c
  | .dense t => .dense t.t
  | .diag t => .diag t.t
  | .const t r c => .const t.t r c
  | .lt t => .lt t.t
  | .ut t => .ut t.t
  | .lr l r m => .lr l.mat r.mat m.mat
  | .wb d l r m => .wb d.t l.mat r.mat m.mat
  | .kron l r => .kron l.mat r.mat
  | .tiled n blk reps axis => .tiled n (fun i => (blk i).mat) reps axis

/-- The data types of the backend: the promotion of two types (LAB folds `promote_dtypes` from the left) and the conversion of one entry. -/
structure DEnv (K D : Type) where
  promote : D → D → D
  conv : D → K → K

section
variable [Zero K]

/-- LAB `B.dtype(*xs)` on the types of the arguments; without arguments there is no method. -/
def promoteL (δ : DEnv K D) : List D → E D
  | [] => .error .notFound
  | d :: ds => .ok (ds.foldl δ.promote d)

/-- `B.dtype(a)`, `ops/dtype.py` 17-54; numeric: the type of the array. Zero 17-19, Dense and triangular 22-24, Diagonal 27-29, Constant 32-34,
LowRank 37-39 (left, right, middle), Woodbury 42-44 (diag, lr), Kronecker 47-49, TiledBlocks 52-54. -/
def dtypeM (δ : DEnv K D) : TMat K D → E D
  | .num t => .ok t.dt
  | .zero d _ _ _ => .ok d
  | .dense t => .ok t.dt
  | .diag t => .ok t.dt
  | .const t _ _ => .ok t.dt
  | .lt t => .ok t.dt
  | .ut t => .ok t.dt
  | .lr l r m => do
    let dl ← dtypeM δ l
    let dr ← dtypeM δ r
    let dm ← dtypeM δ m
    promoteL δ [dl, dr, dm]
  | .wb d l r m => do
    let dl ← dtypeM δ l
    let dr ← dtypeM δ r
    let dm ← dtypeM δ m
    let x ← promoteL δ [dl, dr, dm]
    promoteL δ [d.dt, x]
  | .kron l r => do
    let dl ← dtypeM δ l
    let dr ← dtypeM δ r
    promoteL δ [dl, dr]
  | .tiled _ blk _ _ => do
    let ds ← seqFin fun i => dtypeM δ (blk i)
    promoteL δ (List.ofFn ds)

/-- LAB `B.cast(dtype, a)` on an array. -/
def nCast (δ : DEnv K D) (d : D) (t : TT K D) : TT K D := ⟨d, tmap (δ.conv d) t.t⟩

/-- `B.cast(dtype, a)`, `ops/cast.py` 16-69; every case goes through the constructor of the class, with its checks.
A `Constant` is rebuilt with its full shape, `ops/cast.py` 41-42. -/
def castM (δ : DEnv K D) (d : D) : TMat K D → E (TMat K D)
  | .num t => .ok (.num (nCast δ d t))
  | .zero _ bt r c => do
    let _ ← (mkZero (c :: r :: bt) : E (Mat K))
    return .zero d bt r c
  | .dense t => .ok (.dense ⟨d, upT (nCast δ d t).t⟩)
  | .lt t => do
    let _ ← mkLT (nCast δ d t).t
    return .lt (nCast δ d t)
  | .ut t => do
    let _ ← mkUT (nCast δ d t).t
    return .ut (nCast δ d t)
  | .diag t => do
    let _ ← mkDiag (nCast δ d t).t
    return .diag (nCast δ d t)
  | .const t r c => do
    let x ← mkConst (nCast δ d t).t (c :: r :: t.t.sh)
    match x with
    | .const t' r' c' => return .const ⟨d, t'⟩ r' c'
    | _ => .error .notFound
  | .lr l r m => do
    let l' ← castM δ d l
    let r' ← castM δ d r
    let m' ← castM δ d m
    let _ ← mkLR l'.mat r'.mat m'.mat
    return .lr l' r' m'
  | .wb e l r m => do
    let _ ← mkDiag (nCast δ d e).t
    let l' ← castM δ d l
    let r' ← castM δ d r
    let m' ← castM δ d m
    let _ ← mkLR l'.mat r'.mat m'.mat
    let _ ← mkWB (nCast δ d e).t l'.mat r'.mat m'.mat
    return .wb (nCast δ d e) l' r' m'
  | .kron l r => do
    let l' ← castM δ d l
    let r' ← castM δ d r
    return .kron l' r'
  | .tiled n blk reps axis => do
    let blk' ← seqFin fun i => castM δ d (blk i)
    let _ ← mkTiled (fun i => (blk' i).mat) reps axis
    return .tiled n blk' reps axis

/-- The same matrix with every stored entry converted by `f`. -/
def Mat.map (f : K → K) : Mat K → Mat K
  | .num t => .num (tmap f t)
  | .zero bt r c => .zero bt r c
  | .dense t => .dense (tmap f t)
  | .diag t => .diag (tmap f t)
  | .const t r c => .const (tmap f t) r c
  | .lt t => .lt (tmap f t)
  | .ut t => .ut (tmap f t)
  | .lr l r m => .lr (l.map f) (r.map f) (m.map f)
  | .wb d l r m => .wb (tmap f d) (l.map f) (r.map f) (m.map f)
  | .kron l r => .kron (l.map f) (r.map f)
  | .tiled n blk reps axis => .tiled n (fun i => (blk i).map f) reps axis

theorem shp_map (f : K → K) (a : Mat K) : shp (a.map f) = shp a := by
  induction a with
  | lr l r m hl hr hm => simp only [Mat.map, shp, hl, hr, hm]
  | wb d l r m hl hr hm => simp only [Mat.map, shp, hl, hr, hm, tmap_sh]; rfl
  | kron l r hl hr => simp only [Mat.map, shp, hl, hr]
  | tiled n blk reps axis h => simp only [Mat.map, shp, h]
  | _ => rfl

theorem kind_map (f : K → K) (a : Mat K) : (a.map f).kind = a.kind := by cases a <;> rfl

/-- Casting keeps the shape. -/
theorem shape_map (f : K → K) (a : Mat K) : shape (a.map f) = shape a := by
  have h := shp_map f a
  cases a <;> first | rfl | (simp only [Mat.map] at h; simp only [Mat.map, shape, shapeBatch, shapeMatrix, h])

theorem rankM_map (f : K → K) (a : Mat K) : rankM (a.map f) = rankM a := by simp only [rankM, shape_map]
theorem assertMatrix_map (f : K → K) (a : Mat K) : assertMatrix (a.map f) = assertMatrix a := by simp only [assertMatrix, rankM_map]
theorem shapeMatrix_map (f : K → K) (a : Mat K) : shapeMatrix (a.map f) = shapeMatrix a := by simp only [shapeMatrix, shp_map]

/-- Some array in `a`, or some `Zero`, has data type `d`. -/
def TMat.HasD (d : D) : TMat K D → Prop
  | .num t => t.dt = d
  | .zero e _ _ _ => e = d
  | .dense t => t.dt = d
  | .diag t => t.dt = d
  | .const t _ _ => t.dt = d
  | .lt t => t.dt = d
  | .ut t => t.dt = d
  | .lr l r m => l.HasD d ∨ r.HasD d ∨ m.HasD d
  | .wb e l r m => e.dt = d ∨ l.HasD d ∨ r.HasD d ∨ m.HasD d
  | .kron l r => l.HasD d ∨ r.HasD d
  | .tiled _ blk _ _ => ∃ i, (blk i).HasD d

theorem mkLR_map (f : K → K) {l r m x : Mat K} (h : mkLR l r m = .ok x) : mkLR (l.map f) (r.map f) (m.map f) = .ok (x.map f) := by
  simp only [mkLR, assertMatrix_map, shapeMatrix_map, bind_ok_iff, pure_eq_ok] at h ⊢
  obtain ⟨u1, h1, u2, h2, x1, e1, y1, e2, u3, h3, u4, h4, x5, e5, y5, e6, u6, h6, rfl⟩ := h
  exact ⟨u1, h1, u2, h2, x1, e1, y1, e2, u3, h3, u4, h4, x5, e5, y5, e6, u6, h6, rfl⟩

theorem mkWB_map (f : K → K) {d : Tensor K} {l r m x : Mat K} (h : mkWB d l r m = .ok x) :
    mkWB (tmap f d) (l.map f) (r.map f) (m.map f) = .ok (x.map f) := by
  have e1 : shape (.diag (tmap f d) : Mat K) = shape (.diag d : Mat K) := shape_map f (.diag d)
  have e2 : shape (.lr (l.map f) (r.map f) (m.map f)) = shape (.lr l r m) := shape_map f (.lr l r m)
  simp only [mkWB, e1, e2, bind_ok_iff, pure_eq_ok] at h ⊢
  obtain ⟨a, ha, b, hb, u, hu, rfl⟩ := h
  exact ⟨a, ha, b, hb, u, hu, rfl⟩

theorem mkTiled_map (f : K → K) {n : ℕ} {blk : Fin n → Mat K} {reps : Fin n → ℕ} {axis : Int} {x : Mat K} (h : mkTiled blk reps axis = .ok x) :
    mkTiled (fun i => (blk i).map f) reps axis = .ok (x.map f) := by
  simp only [mkTiled, assertMatrix_map, bind_ok_iff, pure_eq_ok] at h ⊢
  obtain ⟨u, hu, v, hv, rfl⟩ := h
  exact ⟨u, hu, v, hv, rfl⟩

theorem tmap_id (t : Tensor K) : tmap id t = t :=
  Tensor.ext_inRange rfl fun _ hi => tmap_get id hi (Fits.refl _)

theorem map_id (a : Mat K) : a.map id = a := by
  induction a with
  | lr l r m hl hr hm => simp only [Mat.map, hl, hr, hm]
  | wb d l r m hl hr hm => simp only [Mat.map, hl, hr, hm, tmap_id]
  | kron l r hl hr => simp only [Mat.map, hl, hr]
  | tiled n blk reps axis h => simp only [Mat.map, h]
  | zero => rfl
  | _ => simp only [Mat.map, tmap_id]

end

/-! ### The promotion of the parts -/

section
variable [Field K] [LinearOrder K]

theorem foldl_idem {p : D → D → D} {d : D} (h : p d d = d) (l : List D) (hl : ∀ x ∈ l, x = d) : l.foldl p d = d := by
  induction l with
  | nil => rfl
  | cons x l ih =>
    have := hl x (by simp)
    subst this
    rw [List.foldl_cons, h]
    exact ih fun y hy => hl y (by simp [hy])

theorem isLUB_foldl [SemilatticeSup D] (d : D) (l : List D) : IsLUB {x | x = d ∨ x ∈ l} (l.foldl (· ⊔ ·) d) := by
  induction l generalizing d with
  | nil => simp
  | cons y l ih =>
    have := ih (d ⊔ y)
    refine ⟨?_, ?_⟩
    · rintro x (rfl | hx)
      · exact le_trans le_sup_left (this.1 (Or.inl rfl))
      · rcases List.mem_cons.1 hx with rfl | hx
        · exact le_trans le_sup_right (this.1 (Or.inl rfl))
        · exact this.1 (Or.inr hx)
    · intro z hz
      refine this.2 ?_
      rintro x (rfl | hx)
      · exact sup_le (hz (Or.inl rfl)) (hz (Or.inr (by simp)))
      · exact hz (Or.inr (by simp [hx]))

/-- The least upper bound of the least upper bounds of parts. -/
theorem isLUB_promote [SemilatticeSup D] {δ : DEnv K D} (hδ : δ.promote = (· ⊔ ·)) {ι : Type} {s : ι → Set D} {xs : List D} {x : D}
    (hx : promoteL δ xs = .ok x) (h1 : ∀ y ∈ xs, ∃ i, IsLUB (s i) y) (h2 : ∀ i, ∃ y ∈ xs, IsLUB (s i) y) : IsLUB {d | ∃ i, d ∈ s i} x := by
  cases xs with
  | nil => simp [promoteL] at hx
  | cons y ys =>
    simp only [promoteL, hδ, Except.ok.injEq] at hx
    subst hx
    have := isLUB_foldl y ys
    refine ⟨?_, ?_⟩
    · rintro d ⟨i, hd⟩
      obtain ⟨z, hz, hl⟩ := h2 i
      refine le_trans (hl.1 hd) (this.1 ?_)
      simpa using hz
    · intro z hz
      refine this.2 ?_
      rintro w hw
      obtain ⟨i, hl⟩ := h1 w (by simpa using hw)
      exact hl.2 fun d hd => hz ⟨i, hd⟩

/-- C41, dtype: for any promotion that is a join (a least upper bound of two types), `B.dtype` of a matrix is the least type that all
its arrays can be promoted to. -/
theorem C41_dtype [SemilatticeSup D] {δ : DEnv K D} (hδ : δ.promote = (· ⊔ ·)) {a : TMat K D} (ha : a.mat.Valid) :
    ∃ d, dtypeM δ a = .ok d ∧ IsLUB {e | a.HasD e} d := by
  obtain ⟨S, ha⟩ := ha
  have leaf : ∀ d : D, IsLUB {e | d = e} d := fun d => by
    have : {e | d = e} = {d} := by ext; simp [eq_comm]
    rw [this]; exact isLUB_singleton
  induction a generalizing S with
  | lr l r m hl hr hm =>
    obtain ⟨⟨wl, wr, wm⟩, _⟩ := ha
    obtain ⟨dl, el, ul⟩ := hl _ wl
    obtain ⟨dr, er, ur⟩ := hr _ wr
    obtain ⟨dm, em, um⟩ := hm _ wm
    refine ⟨_, by simp only [dtypeM, el, er, em, promoteL]; rfl, ?_⟩
    have := isLUB_promote hδ (s := fun i : Fin 3 => ![{e | l.HasD e}, {e | r.HasD e}, {e | m.HasD e}] i) (xs := [dl, dr, dm]) rfl
      (by
        intro y hy
        simp only [List.mem_cons, List.not_mem_nil, or_false] at hy
        rcases hy with rfl | rfl | rfl
        exacts [⟨0, ul⟩, ⟨1, ur⟩, ⟨2, um⟩])
      (by
        intro i
        fin_cases i
        exacts [⟨dl, by simp, ul⟩, ⟨dr, by simp, ur⟩, ⟨dm, by simp, um⟩])
    convert this using 1
    ext e
    simp [TMat.HasD, Fin.exists_fin_succ]
  | wb d l r m hl hr hm =>
    obtain ⟨_, ⟨wl, wr, wm⟩, _⟩ := ha
    obtain ⟨dl, el, ul⟩ := hl _ wl
    obtain ⟨dr, er, ur⟩ := hr _ wr
    obtain ⟨dm, em, um⟩ := hm _ wm
    refine ⟨_, by simp only [dtypeM, el, er, em, promoteL]; rfl, ?_⟩
    have h1 := isLUB_promote hδ (s := fun i : Fin 3 => ![{e | l.HasD e}, {e | r.HasD e}, {e | m.HasD e}] i) (xs := [dl, dr, dm]) rfl
      (by
        intro y hy
        simp only [List.mem_cons, List.not_mem_nil, or_false] at hy
        rcases hy with rfl | rfl | rfl
        exacts [⟨0, ul⟩, ⟨1, ur⟩, ⟨2, um⟩])
      (by
        intro i
        fin_cases i
        exacts [⟨dl, by simp, ul⟩, ⟨dr, by simp, ur⟩, ⟨dm, by simp, um⟩])
    have h2 : IsLUB {e | (TMat.lr l r m).HasD e} (List.foldl δ.promote dl [dr, dm]) := by
      convert h1 using 1
      ext e
      simp [TMat.HasD, Fin.exists_fin_succ]
    have := isLUB_promote hδ (s := fun i : Fin 2 => ![{e | d.dt = e}, {e | (TMat.lr l r m).HasD e}] i)
      (xs := [d.dt, List.foldl δ.promote dl [dr, dm]]) rfl
      (by
        intro y hy
        simp only [List.mem_cons, List.not_mem_nil, or_false] at hy
        rcases hy with rfl | rfl
        exacts [⟨0, leaf _⟩, ⟨1, h2⟩])
      (by
        intro i
        fin_cases i
        exacts [⟨d.dt, by simp, leaf _⟩, ⟨_, List.mem_cons_of_mem _ (List.mem_cons_self ..), h2⟩])
    convert this using 1
    ext e
    simp [TMat.HasD, Fin.exists_fin_succ, eq_comm (a := e)]
  | kron l r hl hr =>
    obtain ⟨⟨wl, wr⟩, _⟩ := ha
    obtain ⟨dl, el, ul⟩ := hl _ wl
    obtain ⟨dr, er, ur⟩ := hr _ wr
    refine ⟨_, by simp only [dtypeM, el, er, promoteL]; rfl, ?_⟩
    have := isLUB_promote hδ (s := fun i : Fin 2 => ![{e | l.HasD e}, {e | r.HasD e}] i) (xs := [dl, dr]) rfl
      (by
        intro y hy
        simp only [List.mem_cons, List.not_mem_nil, or_false] at hy
        rcases hy with rfl | rfl
        exacts [⟨0, ul⟩, ⟨1, ur⟩])
      (by
        intro i
        fin_cases i
        exacts [⟨dl, by simp, ul⟩, ⟨dr, by simp, ur⟩])
    convert this using 1
    ext e
    simp [TMat.HasD, Fin.exists_fin_succ]
  | tiled n blk reps axis h =>
    obtain ⟨k, _, hn, _, hw, _⟩ := ha
    choose ds ed ud using fun i => h i _ (hw i)
    have es : seqFin (fun i => dtypeM δ (blk i)) = .ok ds := seqFin_ok.2 ed
    obtain ⟨d, hd⟩ : ∃ d, promoteL δ (List.ofFn ds) = .ok d := by
      obtain ⟨n, rfl⟩ := Nat.exists_eq_succ_of_ne_zero hn
      rw [List.ofFn_succ]; exact ⟨_, rfl⟩
    refine ⟨d, by simp only [dtypeM, es]; exact hd, ?_⟩
    refine isLUB_promote hδ (s := fun i => {e | (blk i).HasD e}) hd ?_ fun i => ⟨ds i, by simp [List.mem_ofFn], ud i⟩
    intro y hy
    obtain ⟨i, rfl⟩ := List.mem_ofFn.1 hy
    exact ⟨i, ud i⟩
  | _ => exact ⟨_, rfl, leaf _⟩

/-- C41, dtype of uniformly typed parts, for any promotion that leaves equal types alone. -/
theorem C41_dtype_uniform {δ : DEnv K D} {d : D} (hδ : δ.promote d d = d) {a : TMat K D} (ha : a.mat.Valid) (h : ∀ e, a.HasD e → e = d) :
    dtypeM δ a = .ok d := by
  obtain ⟨S, ha⟩ := ha
  induction a generalizing S with
  | lr l r m hl hr hm =>
    obtain ⟨⟨wl, wr, wm⟩, _⟩ := ha
    simp only [dtypeM, hl (fun e he => h e (Or.inl he)) _ wl, hr (fun e he => h e (Or.inr (Or.inl he))) _ wr,
      hm (fun e he => h e (Or.inr (Or.inr he))) _ wm, promoteL]
    simp [hδ, bind, Except.bind]
  | wb d' l r m hl hr hm =>
    obtain ⟨_, ⟨wl, wr, wm⟩, _⟩ := ha
    have h0 := h d'.dt (Or.inl rfl)
    simp only [dtypeM, hl (fun e he => h e (Or.inr (Or.inl he))) _ wl, hr (fun e he => h e (Or.inr (Or.inr (Or.inl he)))) _ wr,
      hm (fun e he => h e (Or.inr (Or.inr (Or.inr he)))) _ wm, promoteL]
    simp [hδ, h0, bind, Except.bind]
  | kron l r hl hr =>
    obtain ⟨⟨wl, wr⟩, _⟩ := ha
    simp only [dtypeM, hl (fun e he => h e (Or.inl he)) _ wl, hr (fun e he => h e (Or.inr he)) _ wr, promoteL]
    simp [hδ, bind, Except.bind]
  | tiled n blk reps axis ih =>
    obtain ⟨k, _, hn, _, hw, _⟩ := ha
    have es : seqFin (fun i => dtypeM δ (blk i)) = .ok (fun _ => d) := seqFin_ok.2 fun i => ih i (fun e he => h e ⟨i, he⟩) _ (hw i)
    obtain ⟨n, rfl⟩ := Nat.exists_eq_succ_of_ne_zero hn
    simp only [dtypeM, es, bind, Except.bind, List.ofFn_succ, promoteL, Except.ok.injEq]
    exact foldl_idem hδ _ (by simp [List.mem_ofFn])
  | _ => exact congrArg Except.ok (h _ rfl)

/-! ### Casting -/

theorem castM_ok (δ : DEnv K D) (d : D) {a : TMat K D} {S : Shp} (ha : a.mat.WF S) :
    ∃ r, castM δ d a = .ok r ∧ r.mat = a.mat.map (δ.conv d) ∧ ∀ e, r.HasD e → e = d := by
  induction a generalizing S with
  | num t => exact ⟨_, rfl, rfl, fun e he => he.symm⟩
  | zero e bt r c => exact ⟨_, rfl, rfl, fun e he => he.symm⟩
  | dense t =>
    refine ⟨_, rfl, ?_, fun e he => he.symm⟩
    exact congrArg Mat.dense (upT_of_rank (t := tmap _ t.t) ha.1)
  | diag t =>
    have : mkDiag (nCast δ d t).t = .ok (.diag (nCast δ d t).t) := by rw [C29_diagonal]; exact if_pos ha.1
    exact ⟨.diag (nCast δ d t), by simp only [castM, this]; rfl, rfl, fun e he => he.symm⟩
  | lt t =>
    have : mkLT (nCast δ d t).t = .ok (.lt (nCast δ d t).t) := by rw [(C29_triangular _).1]; exact if_pos ha.1
    exact ⟨.lt (nCast δ d t), by simp only [castM, this]; rfl, rfl, fun e he => he.symm⟩
  | ut t =>
    have : mkUT (nCast δ d t).t = .ok (.ut (nCast δ d t).t) := by rw [(C29_triangular _).2]; exact if_pos ha.1
    exact ⟨.ut (nCast δ d t), by simp only [castM, this]; rfl, rfl, fun e he => he.symm⟩
  | const t r c =>
    have : mkConst (nCast δ d t).t (c :: r :: t.t.sh) = .ok (.const (nCast δ d t).t r c) := mkConst_self _ _ _
    exact ⟨.const (nCast δ d t) r c, by simp only [castM, this]; rfl, rfl, fun e he => he.symm⟩
  | lr l r m hl hr hm =>
    obtain ⟨⟨wl, wr, wm⟩, h2, h3, h4⟩ := ha
    obtain ⟨l', el, ml, dl⟩ := hl wl
    obtain ⟨r', er, mr, dr⟩ := hr wr
    obtain ⟨m', em, mm', dm⟩ := hm wm
    have := mkLR_map (δ.conv d) (mkLR_ok wl wr wm h2 h3 h4)
    refine ⟨.lr l' r' m', by simp only [castM, el, er, em, ml, mr, mm', bind, Except.bind, this]; rfl, by simp only [TMat.mat, ml, mr, mm', Mat.map], ?_⟩
    rintro e (h | h | h)
    exacts [dl e h, dr e h, dm e h]
  | wb t l r m hl hr hm =>
    have hw := ha
    obtain ⟨⟨h1, _⟩, ⟨wl, wr, wm⟩, h2, ⟨h3, h4⟩, _⟩ := ha
    obtain ⟨l', el, ml, dl⟩ := hl wl
    obtain ⟨r', er, mr, dr⟩ := hr wr
    obtain ⟨m', em, mm', dm⟩ := hm wm
    have e1 : mkDiag (nCast δ d t).t = .ok (.diag (nCast δ d t).t) := by rw [C29_diagonal]; exact if_pos h1
    have e2 := mkLR_map (δ.conv d) (mkLR_ok wl wr wm h2 h3 h4)
    have e3 : mkWB (nCast δ d t).t _ _ _ = _ := mkWB_map (δ.conv d) (mkWB_ok hw)
    refine ⟨.wb (nCast δ d t) l' r' m', by simp only [castM, e1, el, er, em, ml, mr, mm', bind, Except.bind, e2, e3]; rfl,
      by simp only [TMat.mat, ml, mr, mm', Mat.map, nCast], ?_⟩
    rintro e (h | h | h | h)
    exacts [h.symm, dl e h, dr e h, dm e h]
  | kron l r hl hr =>
    obtain ⟨⟨wl, wr⟩, _⟩ := ha
    obtain ⟨l', el, ml, dl⟩ := hl wl
    obtain ⟨r', er, mr, dr⟩ := hr wr
    refine ⟨.kron l' r', by simp only [castM, el, er]; rfl, by simp only [TMat.mat, ml, mr, Mat.map], ?_⟩
    rintro e (h | h)
    exacts [dl e h, dr e h]
  | tiled n blk reps axis ih =>
    obtain ⟨k, _, hn, h2, hw, _⟩ := ha
    choose b' eb mb db using fun i => ih i (hw i)
    have es : seqFin (fun i => castM δ d (blk i)) = .ok b' := seqFin_ok.2 eb
    have et := mkTiled_map (δ.conv d) (mkTiled_ok (reps := reps) (axis := axis) hn hw h2)
    have em : (fun i => (b' i).mat) = fun i => ((blk i).mat).map (δ.conv d) := funext mb
    refine ⟨.tiled n b' reps axis, by simp only [castM, es, bind, Except.bind, em, et]; rfl, by simp only [TMat.mat, em, Mat.map], ?_⟩
    rintro e ⟨i, h⟩
    exact db i e h

/-! ### Well-formedness of converted matrices -/

theorem mm_sh_congr {a a' b b' : Tensor K} (ha : a.sh = a'.sh) (hb : b.sh = b'.sh) : (mm a b).sh = (mm a' b').sh := by
  simp only [mm_sh, Tensor.cols, Tensor.rows, Tensor.bt, ha, hb]
theorem tr_sh_congr {a a' : Tensor K} (ha : a.sh = a'.sh) : (tr a).sh = (tr a').sh := by
  simp only [tr_sh, Tensor.cols, Tensor.rows, Tensor.bt, ha]
theorem kronT_sh_congr {a a' b b' : Tensor K} (ha : a.sh = a'.sh) (hb : b.sh = b'.sh) : (kronT a b).sh = (kronT a' b').sh := by
  simp only [kronT_sh, Tensor.cols, Tensor.rows, Tensor.bt, ha, hb]
theorem zipB_sh_congr {f g : K → K → K} {a a' b b' : Tensor K} (ha : a.sh = a'.sh) (hb : b.sh = b'.sh) : (zipB f a b).sh = (zipB g a' b').sh := by
  show bsh a.sh b.sh = bsh a'.sh b'.sh
  rw [ha, hb]

theorem tiledT_sh_congr {n : ℕ} {blk blk' : Fin n → Tensor K} {reps : Fin n → ℕ} (h : ∀ i, (blk i).sh = (blk' i).sh) (k : ℕ) :
    (tiledT blk reps k).sh = (tiledT blk' reps k).sh := by
  have e : ∀ i, (tileOf blk reps k i).sh = (tileOf blk' reps k i).sh := fun i => by
    rw [tileOf_sh, tileOf_sh]
    simp only [maxRank, Tensor.rank, h]
  rw [tiledT_sh, tiledT_sh]
  congr 1
  · simp only [tiledBase, List.map_ofFn]
    congr 2
    funext i
    simp only [Function.comp, e]
  · simp only [concatDim, List.map_ofFn]
    congr 2
    funext i
    simp only [Function.comp, e]

theorem den_map_sh (f : K → K) (a : Mat K) : (den (a.map f)).sh = (den a).sh := by
  induction a with
  | lr l r m hl hr hm => exact mm_sh_congr (mm_sh_congr hl hm) (tr_sh_congr hr)
  | wb d l r m hl hr hm => exact zipB_sh_congr rfl (mm_sh_congr (mm_sh_congr hl hm) (tr_sh_congr hr))
  | kron l r hl hr => exact kronT_sh_congr hl hr
  | tiled n blk reps axis h =>
    have e : tiledPos (fun i => den ((blk i).map f)) axis = tiledPos (fun i => den (blk i)) axis := by
      simp only [tiledPos, Tensor.rank, h]
    show (tiledT _ _ _).sh = (tiledT _ _ _).sh
    rw [e]
    exact tiledT_sh_congr h _
  | _ => rfl

theorem wf_map {f : K → K} (hf : f 0 = 0) {a : Mat K} {S : Shp} (h : a.WF S) : (a.map f).WF S := by
  have tri : ∀ {t : Tensor K} {β i j}, InRange t.bt β → i < t.rows → j < t.cols → 2 ≤ t.rank → t.at' β i j = 0 → (tmap f t).at' β i j = 0 := by
    intro t β i j hβ hi hj h2 h0
    have hr : InRange t.sh (icons j (icons i β)) := by
      rw [Tensor.sh_eq h2, inRange_cons]; refine ⟨hj, ?_⟩; rw [inRange_cons]; exact ⟨hi, hβ⟩
    have : (tmap f t).at' β i j = f (t.at' β i j) := tmap_get f hr (Fits.refl _)
    rw [this, h0, hf]
  induction a generalizing S with
  | lt t => exact ⟨h.1, h.2.1, h.2.2.1, fun β i j hβ hi hj hij => tri hβ hi hj h.1 (h.2.2.2 β i j hβ hi hj hij)⟩
  | ut t => exact ⟨h.1, h.2.1, h.2.2.1, fun β i j hβ hi hj hij => tri hβ hi hj h.1 (h.2.2.2 β i j hβ hi hj hij)⟩
  | lr l r m hl hr hm =>
    obtain ⟨⟨wl, wr, wm⟩, h2⟩ := h
    refine ⟨⟨hl wl, hr wr, hm wm⟩, ?_⟩
    simpa only [Tensor.rank, Tensor.cols, Tensor.rows, den_map_sh] using h2
  | wb d l r m hl hr hm =>
    obtain ⟨hd, ⟨wl, wr, wm⟩, h2⟩ := h
    refine ⟨hd, ⟨hl wl, hr wr, hm wm⟩, ?_⟩
    simpa only [Tensor.rank, Tensor.cols, Tensor.rows, den_map_sh, tmap_sh] using h2
  | kron l r hl hr =>
    obtain ⟨⟨wl, wr⟩, h2⟩ := h
    refine ⟨⟨hl wl, hr wr⟩, ?_⟩
    simpa only [Tensor.rank, Tensor.cols, Tensor.rows, den_map_sh] using h2
  | tiled n blk reps axis ih =>
    obtain ⟨k, hk, hn, h2, hw, h3, h4, h5⟩ := h
    refine ⟨k, ?_, hn, ?_, ?_, ?_, ?_, ?_⟩
    · simpa only [Tensor.rank, den_map_sh] using hk
    · simpa only [Tensor.rank, den_map_sh] using h2
    · intro i
      have := ih i (hw i)
      simpa only [den_map_sh] using this
    · simpa only [Tensor.rows, den_map_sh] using h3
    · simpa only [Tensor.cols, den_map_sh] using h4
    · have := den_map_sh f (.tiled n blk reps axis)
      simp only [Mat.map] at this
      simp only [Tensor.bt] at h5 ⊢
      rw [this]; exact h5
  | _ => exact h

/-- C41, cast: casting a well-formed matrix always returns; the result has exactly the requested type and the class and shape of the argument,
it is again well formed, and where the conversion does not change values it is the same matrix. -/
theorem C41_cast (δ : DEnv K D) {d : D} (hδ : δ.promote d d = d) (h0 : δ.conv d 0 = 0) {a : TMat K D} (ha : a.mat.Valid) :
    ∃ r, castM δ d a = .ok r ∧ dtypeM δ r = .ok d ∧ (∀ e, r.HasD e → e = d) ∧ r.mat.Valid ∧ r.mat.kind = a.mat.kind ∧ shape r.mat = shape a.mat ∧
      (den r.mat).sh = (den a.mat).sh ∧ (δ.conv d = id → r.mat = a.mat) := by
  obtain ⟨S, hw⟩ := ha
  obtain ⟨r, h1, h2, h3⟩ := castM_ok δ d hw
  have hv : r.mat.Valid := ⟨S, by rw [h2]; exact wf_map h0 hw⟩
  exact ⟨r, h1, C41_dtype_uniform hδ hv h3, h3, hv, by rw [h2, kind_map], by rw [h2, shape_map], by rw [h2, den_map_sh],
    fun h0 => by rw [h2, h0, map_id]⟩

/-! ### Zeros, ones and identities of the type of a matrix -/

/-- `B.zero(a)`, `ops/zero.py` 9-10: the scalar 0 of the type of `a`. -/
def tZero (δ : DEnv K D) (a : TMat K D) : E (TT K D) := do return ⟨← dtypeM δ a, scalarT 0⟩
/-- `B.one(a)`, `ops/one.py` 9-10. -/
def tOne (δ : DEnv K D) (a : TMat K D) : E (TT K D) := do return ⟨← dtypeM δ a, scalarT 1⟩

/-- `B.zeros(a: AbstractMatrix)`, `ops/zeros.py` 9-11: `Zero(B.dtype(a), *B.shape(a))`. -/
def tZeros (δ : DEnv K D) (a : TMat K D) : E (TMat K D) := do
  let d ← dtypeM δ a
  match ← mkZero (← shape a.mat) with
  | (.zero bt r c : Mat K) => return .zero d bt r c
  | _ => .error .notFound

/-- `B.ones(a: AbstractMatrix)`, `ops/ones.py` 9-11: `Constant(B.one(a), *B.shape(a))`. -/
def tOnes (δ : DEnv K D) (a : TMat K D) : E (TMat K D) := do
  let o ← tOne δ a
  match ← mkConst o.t (← shape a.mat) with
  | .const t r c => return .const ⟨o.dt, t⟩ r c
  | _ => .error .notFound

/-- `B.fill_diag(a, diag_len)`, `ops/fill_diag.py` 9-18: `Diagonal(expand_dims(a, -1) * ones(dtype(a), *shape(a), diag_len))`; the product of
two arrays has the promoted type. -/
def tFillDiag (δ : DEnv K D) (t : TT K D) (n : ℕ) : E (TMat K D) := do
  match ← fillDiag t.t n with
  | .diag u => return .diag ⟨δ.promote t.dt t.dt, u⟩
  | _ => .error .notFound

/-- `B.eye(a: AbstractMatrix)`, `ops/eye.py` 9-12. -/
def tEye (δ : DEnv K D) (a : TMat K D) : E (TMat K D) := do
  assertSquare a.mat
  let o ← tOne δ a
  tFillDiag δ o (← shapeMatrix a.mat).1

theorem scalar_get (x : K) (β : Idx) : (scalarT x).get β = x := by
  have := fillT_get (S := []) (s := []) x (i := fun _ => 0) (by intro k; simp [dim]) (Fits.refl _)
  have h := (scalarT x).get_clip β
  have e : clip (scalarT x).sh β = fun _ => 0 := by
    funext k
    show (if β k < dim [] k then β k else 0) = 0
    have : dim [] k = 1 := rfl
    rw [this]; split_ifs <;> omega
  rw [← h, e]; exact this

/-- C41, fill_diag: the diagonal matrices with the given (batch of) scalars on a diagonal of length `n`, of the type of the scalars. -/
theorem C41_fill_diag {δ : DEnv K D} (t : TT K D) (n : ℕ) (hδ : δ.promote t.dt t.dt = t.dt) :
    ∃ r, tFillDiag δ t n = .ok r ∧ dtypeM δ r = .ok t.dt ∧ r.mat.Valid ∧ r.mat.kind = some .diag ∧ (den r.mat).sh = n :: n :: t.t.sh ∧
      ∀ β i j, InRange t.t.sh β → i < n → j < n → (den r.mat).at' β i j = if i = j then t.t.get β else 0 := by
  have hs : (expandEnd 1 t.t).sh = 1 :: t.t.sh := by simp [expandEnd_sh]
  have hc : Compat (expandEnd 1 t.t).sh (fillT (n :: t.t.sh) (1 : K)).sh := by
    rw [hs]; show Compat (1 :: t.t.sh) (n :: t.t.sh)
    rw [compat_cons]; exact ⟨Or.inl rfl, Compat.refl _⟩
  have hz : (zipB (· * ·) (expandEnd 1 t.t) (fillT (n :: t.t.sh) (1 : K))).sh = n :: t.t.sh := by
    show bsh (expandEnd 1 t.t).sh (n :: t.t.sh) = _
    rw [hs]; simp
  refine ⟨.diag ⟨δ.promote t.dt t.dt, zipB (· * ·) (expandEnd 1 t.t) (fillT (n :: t.t.sh) 1)⟩, ?_, congrArg Except.ok hδ, ?_, rfl, ?_, ?_⟩
  · have : fillDiag t.t n = .ok (.diag (zipB (· * ·) (expandEnd 1 t.t) (fillT (n :: t.t.sh) 1))) := by
      unfold fillDiag nMul nZip
      rw [if_pos hc]
      show mkDiag (zipB (· * ·) (expandEnd 1 t.t) (fillT (n :: t.t.sh) (1 : K))) = _
      rw [C29_diagonal, if_pos]
      rw [Tensor.rank, hz]; simp
    simp only [tFillDiag, this]; rfl
  · refine ⟨t.t.sh, ?_, ?_⟩
    · show 1 ≤ (zipB (· * ·) (expandEnd 1 t.t) (fillT (n :: t.t.sh) (1 : K))).sh.length
      rw [hz]; simp
    · show Fits t.t.sh (List.tail (zipB (· * ·) (expandEnd 1 t.t) (fillT (n :: t.t.sh) (1 : K))).sh)
      rw [hz]; exact Fits.refl _
  · show (diagC (zipB (· * ·) (expandEnd 1 t.t) (fillT (n :: t.t.sh) (1 : K)))).sh = _
    simp [diagC, mkMat, Tensor.cols, hz, dim]
  · intro β i j hβ hi hj
    have hcol : (zipB (· * ·) (expandEnd 1 t.t) (fillT (n :: t.t.sh) (1 : K))).cols = n := by
      rw [Tensor.cols, hz]; rfl
    have : (den (.diag (zipB (· * ·) (expandEnd 1 t.t) (fillT (n :: t.t.sh) (1 : K))) : Mat K)).at' β i j = _ :=
      at_diagC hβ (by rw [hz]; exact Fits.refl _) (by rw [hcol]; exact hi) (by rw [hcol]; exact hj)
    show (den (.diag (zipB (· * ·) (expandEnd 1 t.t) (fillT (n :: t.t.sh) (1 : K))) : Mat K)).at' β i j = _
    rw [this]
    by_cases h : i = j
    · rw [if_pos h, if_pos h]
      have hr : InRange (n :: t.t.sh) (icons i β) := by rw [inRange_cons]; exact ⟨hi, hβ⟩
      rw [Tensor.vat, zipB_get _ hr (by rw [hs, fits_cons]; exact ⟨Or.inl rfl, Fits.refl _⟩) (Fits.refl _), fillT_get _ hr (Fits.refl _), mul_one]
      have : expandEnd 1 t.t = ofFn (1 :: t.t.sh) (fun i => t.t.get fun k => i (k+1)) := rfl
      rw [this, ofFn_get_fits _ hr (by rw [fits_cons]; exact ⟨Or.inl rfl, Fits.refl _⟩)]
      refine congrArg t.t.get (funext fun k => ?_)
      show (if β k < dim t.t.sh k then β k else 0) = β k
      rw [if_pos (hβ k)]
    · rw [if_neg h, if_neg h]

/-- C41, zeros and ones: they return for every well-formed matrix, have its data type and shape, and all their entries are 0 (1). -/
theorem C41_zeros_ones [SemilatticeSup D] {δ : DEnv K D} (hδ : δ.promote = (· ⊔ ·)) {a : TMat K D} (ha : a.mat.Valid) (hm : a.mat.isAM = true) :
    ∃ d, dtypeM δ a = .ok d ∧
      (∃ r, tZeros δ a = .ok r ∧ dtypeM δ r = .ok d ∧ r.mat.kind = some .zero ∧ (den r.mat).sh = (den a.mat).sh ∧
        ∀ β i j, InRange (den a.mat).bt β → i < (den a.mat).rows → j < (den a.mat).cols → (den r.mat).at' β i j = 0) ∧
      (∃ r, tOnes δ a = .ok r ∧ dtypeM δ r = .ok d ∧ r.mat.kind = some .const ∧ (den r.mat).sh = (den a.mat).sh ∧
        ∀ β i j, InRange (den a.mat).bt β → i < (den a.mat).rows → j < (den a.mat).cols → (den r.mat).at' β i j = 1) := by
  obtain ⟨d, hd, _⟩ := C41_dtype hδ ha
  have hs := ha.own.shape
  have e := Tensor.sh_eq (ha.own.rank hm)
  refine ⟨d, hd, ⟨.zero d (den a.mat).bt (den a.mat).rows (den a.mat).cols, ?_, rfl, rfl, e.symm, ?_⟩, ?_⟩
  · simp only [tZeros, hd, hs, bind, Except.bind]; rw [e]; rfl
  · intro β i j hβ hi hj
    have hr : InRange ((den a.mat).cols :: (den a.mat).rows :: (den a.mat).bt) (icons j (icons i β)) := by
      rw [inRange_cons]; refine ⟨hj, ?_⟩; rw [inRange_cons]; exact ⟨hi, hβ⟩
    exact fillT_get _ hr (Fits.refl _)
  · rcases C29_constant (scalarT (1 : K)) (den a.mat).sh with ⟨h, _⟩ | ⟨c, r, bt, hsh, h⟩
    · exact absurd (ha.own.rank hm) (by simpa [Tensor.rank] using h)
    · rcases h with ⟨h, _⟩ | ⟨x, hx, _, hk, hx2, hx3⟩
      · exact absurd (fun k => Or.inl (by simp [scalarT, fillT, ofFn, dim])) h
      · have hb : bsh (scalarT (1 : K)).sh bt = bt := by show bsh [] bt = bt; simp
        rw [hb] at hx2 hx3
        have e2 := e.symm.trans hsh
        simp only [List.cons.injEq] at e2
        obtain ⟨ec, er, eb⟩ := e2
        obtain ⟨t, r', c', rfl⟩ : ∃ t r' c', x = .const t r' c' := by
          cases x <;> simp only [Mat.kind, Option.some.injEq, reduceCtorEq] at hk
          exact ⟨_, _, _, rfl⟩
        refine ⟨.const ⟨d, t⟩ r' c', ?_, rfl, rfl, by rw [hsh]; exact hx2, ?_⟩
        · simp only [tOnes, tOne, hd, hs, bind, Except.bind, pure, Except.pure, hx]
        · intro β i j hβ hi hj
          rw [← scalar_get (1 : K) β]
          exact hx3 β i j (eb ▸ hβ) (er ▸ hi) (ec ▸ hj)

/-- C41, B.zero and B.one: they return for every well-formed matrix, scalars of its data type: 0 (1). -/
theorem C41_zero_one [SemilatticeSup D] {δ : DEnv K D} (hδ : δ.promote = (· ⊔ ·)) {a : TMat K D} (ha : a.mat.Valid) :
    ∃ d z o, dtypeM δ a = .ok d ∧ tZero δ a = .ok z ∧ z.dt = d ∧ z.t.sh = [] ∧ (∀ i, InRange z.t.sh i → z.t.get i = 0) ∧
      tOne δ a = .ok o ∧ o.dt = d ∧ o.t.sh = [] ∧ ∀ i, InRange o.t.sh i → o.t.get i = 1 := by
  obtain ⟨d, hd, _⟩ := C41_dtype hδ ha
  refine ⟨d, ⟨d, scalarT 0⟩, ⟨d, scalarT 1⟩, hd, by simp only [tZero, hd, bind, Except.bind, pure, Except.pure], rfl, rfl, fun i _ => scalar_get 0 i,
    by simp only [tOne, hd, bind, Except.bind, pure, Except.pure], rfl, rfl, fun i _ => scalar_get 1 i⟩

/-- C41, eye: AssertionError unless the matrix is square; otherwise the identity of its size and type, as one Diagonal without batch dimensions
(whatever the batch shape of the argument). -/
theorem C41_eye [SemilatticeSup D] {δ : DEnv K D} (hδ : δ.promote = (· ⊔ ·)) {a : TMat K D} (ha : a.mat.Valid) (hm : a.mat.isAM = true) :
    ((den a.mat).rows ≠ (den a.mat).cols → tEye δ a = .error .assertion) ∧
    ((den a.mat).rows = (den a.mat).cols → ∃ d r, dtypeM δ a = .ok d ∧ tEye δ a = .ok r ∧ dtypeM δ r = .ok d ∧ r.mat.Valid ∧
      r.mat.kind = some .diag ∧ (den r.mat).sh = [(den a.mat).cols, (den a.mat).rows] ∧
      ∀ β i j, i < (den a.mat).rows → j < (den a.mat).cols → (den r.mat).at' β i j = if i = j then 1 else 0) := by
  constructor
  · intro hne
    have : assertSquare a.mat = .error .assertion := by
      have h2 := ha.own.rank hm
      simp only [assertSquare, assertMatrix, ha.own.rankM, ha.own.shapeMatrix, bind, Except.bind, guardE, if_pos h2, if_neg hne]
    simp only [tEye, this]; rfl
  · intro he
    obtain ⟨d, hd, _⟩ := C41_dtype hδ ha
    obtain ⟨r, h1, h2, h3, h4, h5, h6⟩ := C41_fill_diag (δ := δ) (⟨d, scalarT (1 : K)⟩ : TT K D) (den a.mat).rows (by simp [hδ])
    refine ⟨d, r, hd, ?_, h2, h3, h4, by rw [← he]; exact h5, ?_⟩
    · have : assertSquare a.mat = .ok () := (assertSquare_ok ha.own).2 ⟨ha.own.rank hm, he⟩
      simp only [tEye, this, tOne, hd, ha.own.shapeMatrix, bind, Except.bind, pure, Except.pure, h1]
    · intro β i j hi hj
      have hb : (den r.mat).bt = [] := by rw [Tensor.bt, h5]; rfl
      have h0 : InRange ([] : Shp) (clip [] β) := by
        intro k
        show (if β k < dim [] k then β k else 0) < dim [] k
        have : dim [] k = 1 := rfl
        rw [this]; split_ifs <;> omega
      have := h6 (clip [] β) i j h0 hi (by rw [he]; exact hj)
      rw [scalar_get, Tensor.at'_clip (S := []) (by rw [hb]; exact Fits.refl _)] at this
      exact this

end

/-! ### Examples -/
namespace Ex

/-- Two types ordered by size: `false` keeps only integers, `true` keeps all rational numbers. -/
def denv : DEnv ℚ Bool := ⟨(· ⊔ ·), fun d x => if d then x else x.floor⟩

/-- A Woodbury matrix whose diagonal and middle factor have the smaller type and whose left factor has the larger. -/
def tw : TMat ℚ Bool := .wb ⟨false, v [1, 1]⟩ (.num ⟨true, m 2 1 [1/2, 2]⟩) (.num ⟨false, m 2 1 [1, 2]⟩) (.diag ⟨false, v [4]⟩)

theorem tw_valid : tw.mat.Valid := by
  refine ⟨[], ⟨by decide, Fits.refl _⟩, ⟨num_wf _ _ _ _, num_wf _ _ _ _, by decide, Fits.refl _⟩, ?_, ?_, ?_⟩ <;> decide

example : ∃ d, dtypeM denv tw = .ok d ∧ IsLUB {e | tw.HasD e} d := C41_dtype rfl tw_valid
example : dtypeM denv tw = .ok true := rfl
example : ∃ r, castM denv false tw = .ok r ∧ dtypeM denv r = .ok false := by
  obtain ⟨r, h, h', _⟩ := C41_cast denv (d := false) rfl rfl tw_valid
  exact ⟨r, h, h'⟩
example : (den tw.mat).rows = (den tw.mat).cols ∧ tw.mat.isAM = true := ⟨rfl, rfl⟩

end Ex
end Verif
