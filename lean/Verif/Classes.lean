/-
Classes of results (C51): linear algebra, element-wise functions, selection, Kronecker products, whole expressions.
-/
import Verif.Props12
import Verif.Take
import Verif.Submat

set_option linter.unusedSectionVars false

namespace Verif

variable {K : Type} [Field K] [LinearOrder K]

/-! ### The tables -/

/-- Class of `B.pd_inv`: Dense, except for the classes with a method of their own. -/
def pdInvOut : Option Kind → Kind
  | some .diag => .diag
  | some .wb => .wb
  | some .kron => .kron
  | _ => .dense

/-- Class of `B.cholesky` (`none`: a plain array), except for LowRank matrices. -/
def cholOut : Option Kind → Option Kind
  | some .dense | some .wb => some .lt
  | k => k

/-- Class of `B.root`. -/
def rootOut : Option Kind → Option Kind
  | some .lr | some .wb => some .dense
  | k => k

/-- Classes of `B.solve` for a matrix of class `k` and a right-hand side of class `k'` (`none`: a plain array). -/
def solveOut (k k' : Kind) : List (Option Kind) :=
  if k' = .zero then [some .zero]
  else if k = .diag ∨ k = .wb then (mmOut false false k k').map some
  else if k = .lt ∨ k = .ut then [some .dense]
  else [none]

/-- Class of `B.abs`, `B.sqrt`, `B.power`. -/
def eltOut : Kind → Kind
  | .lr | .wb | .tiled => .dense
  | k => k

/-- Class of `B.take` along the axis at position `k` from the end. -/
def takeOut (k : ℕ) : Kind → Kind
  | .zero => .zero
  | .const => .const
  | .lr => .lr
  | .dense => .dense
  | .tiled => .dense
  | x => if k < 2 then .dense else x

/-- Class of `B.submatrix`. -/
def subOut : Kind → Kind
  | .kron | .tiled => .dense
  | k => k

/-- Class of `B.kron`. -/
def kronOut : Kind → Kind → Kind
  | .zero, _ | _, .zero => .zero
  | .const, .const => .const
  | _, _ => .kron

/-! ### Negation, subtraction, division, element-wise functions -/

theorem kind_negativeM {a : Mat K} : Post (fun r : Mat K => r.kind = a.kind) (negativeM a) := by
  cases a with
  | num t => exact Post.ok rfl
  | zero bt r c => exact Post.ok rfl
  | dense t => exact Post.ok rfl
  | diag t => exact kind_mkDiag
  | const t r c => exact kind_mkConst
  | lt t => exact kind_mkLT
  | ut t => exact kind_mkUT
  | lr l r m => exact Post.skip fun _ => kind_mkLR
  | wb d l r m => exact Post.skip fun _ => Post.skip fun _ => Post.skip fun _ => kind_mkWB
  | kron l r => exact Post.skip fun _ => Post.pure rfl
  | tiled => exact Post.error

theorem convertAM_am {env : Env K} {a : Mat K} (h : a.isAM = true) : convertAM env a = a := by
  cases a <;> first | rfl | simp [Mat.isAM] at h

theorem isAM_of_kind {a : Mat K} {k : Kind} (h : a.kind = some k) : a.isAM = true := by
  cases a <;> first | rfl | simp [Mat.kind] at h

theorem kind_subtractM {env : Env K} {B : Ops K} (hB : AddKinds env B) {a b : Mat K} (hab : a.isAM = true ∨ b.isAM = true) :
    Post (KindIn (addOut (kindC env a) (kindC env b))) (subtractM env B a b) := by
  unfold subtractM
  split
  · simp [Mat.isAM] at hab
  · exact kind_negativeM.bind fun x hx => hB.am (kind_convertAM env _) (hx.trans (kind_convertAM env _))

theorem kind_eltM {g : Tensor K → E (Tensor K)} {B : Ops K} {a : Mat K} : Post (fun r : Mat K => r.kind = a.kind.map eltOut) (eltM g B a) := by
  cases a with
  | num t => exact Post.skip fun _ => Post.pure rfl
  | zero bt r c => exact Post.ok rfl
  | diag t => exact Post.skip fun _ => kind_mkDiag
  | const t r c => exact Post.skip fun _ => kind_mkConst
  | lt t => exact Post.skip fun _ => kind_mkLT
  | ut t => exact Post.skip fun _ => kind_mkUT
  | kron l r => exact Post.skip fun _ => Post.skip fun _ => Post.pure rfl
  | _ => exact Post.skip fun _ => Post.skip fun _ => Post.pure rfl

/-- C51.  `-a` has the class of `a`. -/
theorem C51_negative {a r : Mat K} (h : negativeM a = .ok r) : r.kind = a.kind := kind_negativeM r h

/-- C51.  The class of `a - b` is as that of `a + b`. -/
theorem C51_subtract (c : Cfg K) {a b r : Mat K} (hab : a.isAM = true ∨ b.isAM = true) (h : Returns c (fun B => subtractM c.code B a b) r) :
    ∃ k ∈ addOut (classOf c a) (classOf c b), r.kind = some k := by
  obtain ⟨n, h⟩ := h
  rw [← classOf_eq, ← classOf_eq]
  exact kind_subtractM (ops_addKinds c.code n) hab r h

/-- C51.  Dividing by a number or a Constant matrix is like multiplying by one; every other quotient is Dense. -/
theorem C51_divide (c : Cfg K) {a b r : Mat K} (hab : a.isAM = true ∨ b.isAM = true) (h : Returns c (fun B => divideM c.code B a b) r) :
    r.kind = some (if classOf c b = .const then mulOut (classOf c a) .const else .dense) := by
  obtain ⟨n, h⟩ := h
  rw [← classOf_eq, ← classOf_eq]
  simp only [divideM] at h
  split at h
  · simp [Mat.isAM] at hab
  · split at h
    · next t p q e =>
      have hk : kindC c.code b = .const := by simp [kindC, e, Mat.kind]
      rw [if_pos hk]
      simp only [divideConst, bind_ok_iff] at h
      obtain ⟨v, _, w, hw, h⟩ := h
      exact (ops_mulKinds c.code n).am (kind_convertAM c.code _) (kind_mkConst w hw) r h
    · next hn =>
      have hk : kindC c.code b ≠ .const := fun hk => by
        have := kind_convertAM c.code b
        rw [hk] at this
        cases e : convertAM c.code b with
        | const t p q => exact hn t p q e
        | _ => rw [e] at this; simp [Mat.kind] at this
      rw [if_neg hk]
      simp only [bind_ok_iff, pure_eq_ok] at h
      obtain ⟨_, _, _, _, _, _, rfl⟩ := h
      rfl

/-- C51.  `B.abs` keeps the class, or returns a Dense matrix for LowRank, Woodbury and TiledBlocks matrices. -/
theorem C51_abs (c : Cfg K) {a r : Mat K} (h : Returns c (fun B => absM B a) r) : r.kind = a.kind.map eltOut := by
  obtain ⟨n, h⟩ := h; exact kind_eltM r h

/-- C51.  The same for `B.sqrt`. -/
theorem C51_sqrt (c : Cfg K) (lin : LinEnv K) {a r : Mat K} (h : Returns c (fun B => sqrtM lin B a) r) : r.kind = a.kind.map eltOut := by
  obtain ⟨n, h⟩ := h; exact kind_eltM r h

/-- C51.  The same for `B.power`. -/
theorem C51_power (c : Cfg K) (p : ℤ) {a r : Mat K} (h : Returns c (fun B => powerM p B a) r) : r.kind = a.kind.map eltOut := by
  obtain ⟨n, h⟩ := h; exact kind_eltM r h

/-- C51.  Kronecker products with a Zero matrix are Zero, of two constants Constant, all others Kronecker. -/
theorem C51_kron (c : Cfg K) {a b r : Mat K} (hab : a.isAM = true ∨ b.isAM = true) (h : kronM c.code a b = .ok r) :
    r.kind = some (kronOut (classOf c a) (classOf c b)) := by
  rw [← classOf_eq, ← classOf_eq]
  have hz : ∀ (x : Mat K) (bt : Shp) (p q : ℕ), Post (fun r : Mat K => r.kind = some .zero) (kronZero x (.zero bt p q)) := fun x bt p q =>
    Post.skip fun _ => Post.skip fun _ => Post.skip fun _ => kind_mkZero
  have ha := kind_convertAM c.code a
  have hb := kind_convertAM c.code b
  unfold kronM at h
  split at h
  · simp [Mat.isAM] at hab
  · simp only at h
    generalize convertAM c.code a = x at ha h
    generalize convertAM c.code b = y at hb h
    generalize kindC c.code a = k at ha ⊢
    generalize kindC c.code b = k' at hb ⊢
    cases x <;> cases y <;> simp only [Mat.kind, reduceCtorEq, Option.some.injEq] at ha hb <;> subst ha <;> subst hb <;>
      first
      | (cases h; rfl)
      | exact hz _ _ _ _ r h
      | exact Post.skip (fun _ => kind_mkConst) r h

/-! ### Selection -/

theorem kind_submatrixLR {B : Ops K} {m' : ℕ} {l r m : Mat K} {sel : Sel} : Post (fun x : Mat K => x.kind = some .lr) (submatrixLR B m' l r m sel) := by
  unfold submatrixLR
  exact Post.skip fun _ => Post.skip fun _ => kind_mkLR

/-- C51.  A submatrix has the class of the matrix, or is Dense for Kronecker and TiledBlocks matrices. -/
theorem C51_submatrix (c : Cfg K) {a r : Mat K} {sel : Sel} {m : ℕ} (h : Returns c (fun B => submatrixM B m a sel) r) : r.kind = a.kind.map subOut := by
  obtain ⟨n, h⟩ := h
  refine (?_ : Post (fun r : Mat K => r.kind = a.kind.map subOut) (submatrixM (ops c.code n) m a sel)) r h
  clear h
  cases a with
  | num t => exact Post.skip fun _ => Post.pure rfl
  | zero bt r c => exact (kind_mkZero (s := sel.count :: sel.count :: bt) : Post (fun r : Mat K => r.kind = some .zero) _)
  | diag t => exact Post.skip fun _ => kind_mkDiag
  | const t r c => exact kind_mkConst
  | lt t => exact Post.skip fun _ => kind_mkLT
  | ut t => exact Post.skip fun _ => kind_mkUT
  | lr l r m => exact kind_submatrixLR
  | wb d l r m =>
    refine Post.skip fun _ => Post.skip fun _ => Post.skip fun y => ?_
    cases y with
    | lr _ _ _ => exact kind_mkWB
    | _ => exact Post.error
  | _ => exact Post.skip fun _ => Post.skip fun _ => Post.pure rfl

/-- The methods of `B.take` after the axis was resolved. -/
def takeStep' (T : Mat K → Sel → Int → E (Mat K)) (B : Ops K) (a : Mat K) (sel : Sel) (axis : Int) (n k : ℕ) : E (Mat K) :=
  match a with
  | .num t => do return .num (← nTakeSel t sel axis)
  | .zero bt r c => mkZero ((c :: r :: bt).set k sel.count)
  | .diag d => if k < 2 then takeDense B (.diag d) sel (negAxis k) else do mkDiag (← nTakeSel d sel (posAxis n k))
  | .const t r c =>
    if k = 1 then mkConst t [c, sel.count]
    else if k = 0 then mkConst t [sel.count, r]
    else do mkConst (← nTakeSel t sel (posAxis n k)) [c, r]
  | .lt t => do
    let u ← nTakeSel t sel (negAxis k)
    if k < 2 then return mkDense u else mkLT u
  | .ut t => do
    let u ← nTakeSel t sel (negAxis k)
    if k < 2 then return mkDense u else mkUT u
  | .lr l r m => takeLR T l r m sel n k
  | .wb d l r m =>
    if k < 2 then do
      let x ← T (.diag d) sel (negAxis k)
      let y ← T (.lr l r m) sel (negAxis k)
      B.add x y
    else do
      let p ← alignBatch2 (.diag d) (.lr l r m)
      let x ← T p.1 sel (posAxis n k)
      let y ← T p.2 sel (posAxis n k)
      B.add x y
  | .kron l r =>
    if k < 2 then takeDense B (.kron l r) sel (negAxis k)
    else do
      let p ← alignBatch2 l r
      let l' ← T p.1 sel (posAxis n k)
      let r' ← T p.2 sel (posAxis n k)
      return .kron l' r'
  | a => takeDense B a sel axis

theorem takeStep_eq {T : Mat K → Sel → Int → E (Mat K)} {B : Ops K} {a : Mat K} {sel : Sel} {axis : Int} {n k : ℕ} (hr : rankM a = .ok n) (hk : axPos n axis = .ok k) :
    takeStep T B a sel axis = takeStep' T B a sel axis n k := by
  unfold takeStep takeStep'
  rw [hr]
  show (do let k ← axPos n axis; _) = _
  rw [hk]
  cases a <;> rfl

theorem kind_takeM {env : Env K} {B : Ops K} (hB : AddKinds env B) {S : Shp} {n k : ℕ} (m : ℕ) {a : Mat K} {sel : Sel} {axis : Int} (ha : a.WF S) (hr : rankM a = .ok n) (hk : axPos n axis = .ok k) :
    Post (fun r : Mat K => r.kind = a.kind.map (takeOut k)) (takeM B m a sel axis) := by
  induction m generalizing a axis n k S with
  | zero => exact Post.error
  | succ m ih =>
    show Post _ (takeStep (takeM B m) B a sel axis)
    rw [takeStep_eq hr hk]
    have hd : ∀ (x : Mat K) (s : Sel) (i : Int), Post (fun r : Mat K => r.kind = some .dense) (takeDense B x s i) := fun x s i => Post.skip fun _ => Post.skip fun _ => Post.pure rfl
    have hlr : ∀ l r m' : Mat K, Post (fun r : Mat K => r.kind = some .lr) (takeLR (takeM B m) l r m' sel n k) := fun l r m' =>
      Post.ite (Post.skip fun _ => kind_mkLR) (Post.ite (Post.skip fun _ => kind_mkLR) (Post.skip fun _ => Post.skip fun _ => Post.skip fun _ => Post.skip fun _ => kind_mkLR))
    cases a with
    | num t => exact Post.skip fun _ => Post.pure rfl
    | zero bt r c => exact kind_mkZero
    | dense t => exact hd _ _ _
    | diag t =>
      show Post (fun r : Mat K => r.kind = some (if k < 2 then .dense else .diag)) (if k < 2 then _ else _)
      split_ifs
      · exact hd _ _ _
      · exact Post.skip fun _ => kind_mkDiag
    | const t r c => exact Post.ite kind_mkConst (Post.ite kind_mkConst (Post.skip fun _ => kind_mkConst))
    | lt t =>
      refine Post.skip fun u => ?_
      show Post (fun r : Mat K => r.kind = some (if k < 2 then .dense else .lt)) (if k < 2 then _ else _)
      split_ifs
      · exact Post.pure rfl
      · exact kind_mkLT
    | ut t =>
      refine Post.skip fun u => ?_
      show Post (fun r : Mat K => r.kind = some (if k < 2 then .dense else .ut)) (if k < 2 then _ else _)
      split_ifs
      · exact Post.pure rfl
      · exact kind_mkUT
    | lr l r m => exact hlr l r m
    | wb d l r m' =>
      have wd := WF.diagPart ha
      have wl := WF.lrPart ha
      show Post (fun r : Mat K => r.kind = some (if k < 2 then .dense else .wb)) (if k < 2 then _ else _)
      split_ifs with h2
      · have rd : rankM (.diag d) = .ok (den (.diag d)).rank := by simp [rankM, wd.shape, Tensor.rank]
        have rl : rankM (.lr l r m') = .ok (den (.lr l r m')).rank := by simp [rankM, wl.shape, Tensor.rank]
        have ax : ∀ p, 2 ≤ p → axPos p (negAxis k) = .ok k := fun p hp => by
          unfold axPos negAxis
          rw [if_neg (by omega), if_pos (by omega)]
          congr 1; omega
        refine (ih wd rd (ax _ (wd.rank rfl))).bind fun x hx => (ih wl rl (ax _ (wl.rank rfl))).bind fun y hy => ?_
        have e1 : x.kind = some .dense := by rw [hx]; simp [Mat.kind, takeOut, h2]
        exact ((hB.am e1 hy).mono fun r hr => by obtain ⟨q, hq, e⟩ := hr; simp [addOut, takeOut] at hq; rw [e, hq])
      · intro z hz
        simp only [bind_ok_iff] at hz
        obtain ⟨p, hp, x, hx, y, hy, hz⟩ := hz
        obtain ⟨T', eT, gd, gl, wa, wb, ea, eb⟩ := alignBatch2_ok wd wl hp
        have k1 : p.1.kind = some .diag ∧ p.2.kind = some .lr := by
          simp only [alignBatch2, bind_ok_iff, pure_eq_ok] at hp
          obtain ⟨_, _, _, h1, _, h2, rfl⟩ := hp
          exact ⟨kind_broadcastBatchTo rfl _ h1, kind_broadcastBatchTo rfl _ h2⟩
        have hn : n = T'.length + 2 := by
          have h0 : rankM (.wb d l r m') = .ok (den (.wb d l r m')).rank := by simp [rankM, ha.shape, Tensor.rank]
          rw [hr] at h0
          have h3 : (den (.wb d l r m')).bt = T' := by rw [eT]; exact zipB_bt
          have h4 := ha.rank rfl
          rw [Except.ok.inj h0, ← h3]
          simp only [Tensor.rank, Tensor.bt, List.length_drop] at *
          omega
        have hkn := axPos_lt hk
        have r1 : rankM p.1 = .ok (T'.length + 2) := by simp [rankM, wa.shape, ea, bbT_sh]
        have r2 : rankM p.2 = .ok (T'.length + 2) := by simp [rankM, wb.shape, eb, bbT_sh]
        have ax : axPos (T'.length + 2) (posAxis n k) = .ok k := axPos_posAxis (q := 0) hn.symm (Nat.zero_le _) hkn
        have e1 := ih wa r1 ax x hx
        have e2 := ih wb r2 ax y hy
        rw [k1.1] at e1
        rw [k1.2] at e2
        have e1' : x.kind = some .diag := by rw [e1]; simp [takeOut, h2]
        obtain ⟨q, hq, e⟩ := hB.am e1' e2 z hz
        simp [addOut, takeOut] at hq
        rw [e, hq]
    | kron l r =>
      show Post (fun r : Mat K => r.kind = some (if k < 2 then .dense else .kron)) (if k < 2 then _ else _)
      split_ifs
      · exact hd _ _ _
      · exact Post.skip fun _ => Post.skip fun _ => Post.skip fun _ => Post.pure rfl
    | tiled bs ax => exact hd _ _ _
/-- C51.  `B.take` keeps Zero, Constant and LowRank matrices; along the rows or columns everything else becomes Dense, along a batch axis the class is kept
(TiledBlocks matrices become Dense). -/
theorem C51_take (c : Cfg K) {a r : Mat K} {sel : Sel} {axis : Int} {k m : ℕ} (ha : a.Valid) (hk : AxisAt (den a).rank axis k)
    (h : Returns c (fun B => takeM B m a sel axis) r) : r.kind = a.kind.map (takeOut k) := by
  obtain ⟨n, h⟩ := h
  exact kind_takeM (ops_addKinds c.code n) m ha.own (by simp [rankM, ha.own.shape, Tensor.rank]) (axPos_iff.2 hk) r h

/-! ### Linear algebra -/

/-- The classes of the results of linear algebra, unconditionally. -/
structure LKinds (env : Env K) (L : LOps K) : Prop where
  inv : ∀ a, Post (fun r : Mat K => r.kind = a.kind) (L.inv a)
  pdInv : ∀ a, a.kind ≠ some .lr → Post (fun r : Mat K => r.kind = some (pdInvOut a.kind)) (L.pdInv a)
  chol : ∀ a, a.kind ≠ some .lr → Post (fun r : Mat K => r.kind = cholOut a.kind) (L.chol a)
  solve : ∀ a b, a.isAM = true ∨ b.isAM = true → TriRk b → Post (fun r : Mat K => r.kind ∈ solveOut (kindC env a) (kindC env b)) (L.solve a b)
  cholSolve : ∀ a b, a.isAM = true → kindC env b = .dense → a.kind ≠ some .kron ∨ b.kind ≠ some .kron → Post (fun r : Mat K => r.kind = some .dense) (L.cholSolve a b)
  root : ∀ a, Post (fun r : Mat K => r.kind = rootOut a.kind) (L.root a)

theorem triRk_convertAM {env : Env K} {b : Mat K} (h : TriRk b) : TriRk (convertAM env b) := by
  cases b with
  | num t => simp only [convertAM]; split_ifs <;> trivial
  | _ => exact h

section
variable {env : Env K} {lin : LinEnv K} {B : Ops K} {L : LOps K}

theorem kind_wbDiff (hB : AddKinds env B) {di : Mat K} (hd : di.kind = some .diag) {l r m : Mat K} :
    Post (fun r : Mat K => r.kind = some .wb) (do subtractM env B di (← mkLR l r m)) := by
  refine kind_mkLR.bind fun x hx => (kind_subtractM hB (.inl (isAM_of_kind hd))).mono fun z hz => ?_
  rw [kindC_am hd, kindC_am hx] at hz
  obtain ⟨k, hk, e⟩ := hz
  simp [addOut] at hk
  rw [e, hk]

theorem kind_stepInv (hB : AddKinds env B) (hL : LKinds env L) (a : Mat K) : Post (fun r : Mat K => r.kind = a.kind) (stepInv env lin B L a) := by
  cases a with
  | num t => exact Post.skip fun _ => Post.pure rfl
  | dense t => exact Post.skip fun _ => Post.pure rfl
  | diag t => exact Post.skip fun _ => kind_mkDiag
  | wb d l r m => exact (hL.inv (.diag d)).bind fun di hd => Post.skip fun _ => Post.skip fun _ => Post.skip fun _ => Post.skip fun _ => kind_wbDiff hB hd
  | kron l r => exact Post.skip fun _ => Post.skip fun _ => Post.pure rfl
  | _ => exact Post.error

theorem kind_stepSolve (hM : MmKinds env B) (hL : LKinds env L) (a b : Mat K) (hab : a.isAM = true ∨ b.isAM = true) (hb : TriRk b) :
    Post (fun r : Mat K => r.kind ∈ solveOut (kindC env a) (kindC env b)) (stepSolve env lin B L a b) := by
  unfold stepSolve
  split
  · simp [Mat.isAM] at hab
  · have ea := kind_convertAM env a
    have eb := kind_convertAM env b
    have tb := triRk_convertAM (env := env) hb
    generalize convertAM env a = x at ea
    generalize convertAM env b = y at eb tb
    generalize kindC env a = k at ea ⊢
    generalize kindC env b = k' at eb ⊢
    by_cases h0 : k' = .zero
    · subst h0
      cases y with
      | zero bt r c =>
        have : Post (fun r : Mat K => r.kind ∈ solveOut k .zero) (.ok (Mat.zero bt r c)) := Post.ok (by simp [solveOut, Mat.kind])
        cases x <;> exact this
      | _ => simp [Mat.kind] at eb
    · have key : ∀ (w : E (Mat K)), (∀ l, (k = .diag ∨ k = .wb) → l = mmOut false false k k' → Post (KindIn l) w) →
          ((k = .lt ∨ k = .ut) → Post (fun r : Mat K => r.kind = some .dense) w) →
          (k ≠ .diag → k ≠ .wb → k ≠ .lt → k ≠ .ut → Post (fun r : Mat K => r.kind = none) w) →
          Post (fun r : Mat K => r.kind ∈ solveOut k k') w := fun w h1 h2 h3 => by
        unfold solveOut
        rw [if_neg h0]
        split_ifs with g1 g2
        · exact (h1 _ g1 rfl).mono fun r hr => by obtain ⟨q, hq, e⟩ := hr; rw [e]; exact List.mem_map_of_mem hq
        · exact (h2 g2).mono fun r hr => by simp [hr]
        · exact (h3 (fun h => g1 (.inl h)) (fun h => g1 (.inr h)) (fun h => g2 (.inl h)) (fun h => g2 (.inr h))).mono fun r hr => by simp [hr]
      have hi : ∀ z : Mat K, z.kind = some k → (k = .diag ∨ k = .wb) → Post (KindIn (mmOut false false k k')) (do B.matmul false false (← L.inv z) y) := fun z hz hk =>
        (hL.inv z).bind fun u hu => by
          rw [hz] at hu
          refine hM.am false false ?_ tb hu eb
          cases u <;> first | trivial | (rcases hk with rfl | rfl <;> simp [Mat.kind] at hu)
      have hd : ∀ z : Mat K, Post (fun r : Mat K => r.kind = none) (solveDense lin B z y) := fun z => Post.skip fun _ => Post.skip fun _ => Post.skip fun _ => Post.skip fun _ => Post.pure rfl
      have ht : ∀ lo t, Post (fun r : Mat K => r.kind = some .dense) (solveTri lin B lo t y) := fun lo t => Post.skip fun _ => Post.skip fun _ => Post.skip fun _ => Post.skip fun _ => Post.pure rfl
      refine key _ ?_ ?_ ?_
      · rintro l hk rfl
        cases x with
        | diag d =>
          cases y with
          | zero bt r c => simp [Mat.kind] at eb; exact absurd eb.symm h0
          | _ => exact hi _ ea hk
        | wb d l r m =>
          cases y with
          | zero bt r c => simp [Mat.kind] at eb; exact absurd eb.symm h0
          | _ => exact hi _ ea hk
        | _ => rcases hk with rfl | rfl <;> simp [Mat.kind] at ea
      · intro hk
        cases x with
        | lt t =>
          cases y with
          | zero bt r c => simp [Mat.kind] at eb; exact absurd eb.symm h0
          | _ => exact ht _ _
        | ut t =>
          cases y with
          | zero bt r c => simp [Mat.kind] at eb; exact absurd eb.symm h0
          | _ => exact ht _ _
        | _ => rcases hk with rfl | rfl <;> simp [Mat.kind] at ea
      · intro h1 h2 h3 h4
        cases x with
        | diag d => simp [Mat.kind] at ea; exact absurd ea.symm h1
        | wb d l r m => simp [Mat.kind] at ea; exact absurd ea.symm h2
        | lt t => simp [Mat.kind] at ea; exact absurd ea.symm h3
        | ut t => simp [Mat.kind] at ea; exact absurd ea.symm h4
        | _ =>
          cases y with
          | zero bt r c => simp [Mat.kind] at eb; exact absurd eb.symm h0
          | _ => exact hd _

theorem kind_cholSolveTri (hL : LKinds env L) {a b : Mat K} (ha : a.kind = some .diag ∨ a.kind = some .lt ∨ a.kind = some .ut) (hb : b.kind = some .dense) :
    Post (fun r : Mat K => r.kind = some .dense) (cholSolveTri L a b) := by
  have one : ∀ x y : Mat K, (x.kind = some .diag ∨ x.kind = some .lt ∨ x.kind = some .ut) → y.kind = some .dense → Post (fun r : Mat K => r.kind = some .dense) (L.solve x y) :=
    fun x y hx hy => by
      have hy' : TriRk y := by cases y <;> first | trivial | simp [Mat.kind] at hy
      rcases hx with hx | hx | hx <;>
        refine (hL.solve x y (.inl (isAM_of_kind hx)) hy').mono fun r hr => ?_ <;>
        rw [kindC_am hx, kindC_am hy] at hr <;> simpa [solveOut, mmOut] using hr
  refine (one a b ha hb).bind fun x hx => ?_
  refine Post.bind (P := fun r : Mat K => r.kind = some .diag ∨ r.kind = some .lt ∨ r.kind = some .ut) (fun r hr => ?_) fun y hy => one y x hy hx
  show r.kind = some .diag ∨ r.kind = some .lt ∨ r.kind = some .ut
  rw [C06_transpose_kind hr]
  rcases ha with ha | ha | ha <;> rw [ha] <;> simp [trKind]

theorem kind_stepCholSolve (hL : LKinds env L) (a b : Mat K) (ha : a.isAM = true) (hb : kindC env b = .dense) (_hk : a.kind ≠ some .kron ∨ b.kind ≠ some .kron) :
    Post (fun r : Mat K => r.kind = some .dense) (stepCholSolve env lin L a b) := by
  have eb := kind_convertAM env b
  rw [hb] at eb
  unfold stepCholSolve
  split
  · simp [Mat.isAM] at ha
  · rw [convertAM_am ha]
    generalize convertAM env b = y at eb
    cases a with
    | diag d => exact kind_cholSolveTri hL (.inl rfl) eb
    | lt d => exact kind_cholSolveTri hL (.inr (.inl rfl)) eb
    | ut d => exact kind_cholSolveTri hL (.inr (.inr rfl)) eb
    | kron l r => cases y <;> first | exact Post.error | simp [Mat.kind] at eb
    | _ => exact Post.error

theorem kind_stepPdInv (hB : AddKinds env B) (hD : ∀ t, Post (fun v => v.rank ≠ 0) (B.dense (.diag t))) (hL : LKinds env L) (a : Mat K) (ha : a.kind ≠ some .lr) : Post (fun r : Mat K => r.kind = some (pdInvOut a.kind)) (stepPdInv env B L a) := by
  have gen : ∀ x : Mat K, x.isAM = true → x.kind ≠ some .lr → Post (fun r : Mat K => r.kind = some .dense) (do
      let ch ← L.chol x
      let id ← B.dense (← eyeM x)
      L.cholSolve ch (.num id)) := fun x hx hl => by
    refine (hL.chol x hl).bind fun ch hc => ?_
    have hm : ch.isAM = true := by
      cases x with
      | num t => simp [Mat.isAM] at hx
      | _ => exact isAM_of_kind hc
    refine Post.bind (P := fun y : Mat K => ∃ t, y = .diag t) (Post.skip fun _ => Post.skip fun _ => fun y hy => ?_) fun y hy => ?_
    · simp only [fillDiag, bind_ok_iff] at hy
      obtain ⟨_, _, hy⟩ := hy
      simp only [mkDiag_ok] at hy
      exact ⟨_, hy.2.symm⟩
    · obtain ⟨t, rfl⟩ := hy
      refine (hD t).bind fun id hid => hL.cholSolve ch _ hm ?_ (.inr (by simp [Mat.kind]))
      simp [kindC, convertAM, hid, Mat.kind, mkDense]
  cases a with
  | diag d => exact hL.inv (.diag d)
  | wb d l r m => exact (hL.inv (.diag d)).bind fun di hd => Post.skip fun _ => Post.skip fun _ => Post.skip fun _ => Post.skip fun _ => kind_wbDiff hB hd
  | kron l r => exact Post.skip fun _ => Post.skip fun _ => Post.pure rfl
  | num t =>
    refine gen _ (isAM_of_kind (kind_convertAM env _)) ?_
    simp only [convertAM]
    split_ifs <;> simp [Mat.kind, mkDense]
  | lr l r m => exact absurd rfl ha
  | _ => exact gen _ rfl (by simp [convertAM, Mat.kind])

theorem kind_stepChol (_hL : LKinds env L) (a : Mat K) (ha : a.kind ≠ some .lr) : Post (fun r : Mat K => r.kind = cholOut a.kind) (stepChol lin B L a) := by
  cases a with
  | num t => exact Post.skip fun _ => Post.pure rfl
  | zero bt r c => exact Post.skip fun _ => Post.pure rfl
  | dense t => exact Post.skip fun _ => Post.skip fun _ => kind_mkLT
  | diag t => exact Post.skip fun _ => Post.skip fun _ => kind_mkDiag
  | const t r c => exact Post.skip fun _ => Post.skip fun _ => Post.skip fun _ => Post.skip fun _ => kind_mkConst
  | lr l r m => exact absurd rfl ha
  | wb d l r m => exact Post.skip fun _ => Post.skip fun _ => kind_mkLT
  | kron l r => exact Post.skip fun _ => Post.skip fun _ => Post.pure rfl
  | _ => exact Post.error

theorem kind_stepRoot (hN : ∀ ta tb s t, Post (fun r : Mat K => ∃ u, r = .num u) (B.matmul ta tb (.num s) (.num t))) (hL : LKinds env L) (a : Mat K) : Post (fun r : Mat K => r.kind = rootOut a.kind) (stepRoot lin B L a) := by
  cases a with
  | num t =>
    refine Post.skip fun _ => Post.skip fun _ => Post.skip fun _ => ?_
    have two : ∀ ta tb tc s t u, Post (fun r : Mat K => r.kind = none) (do let x ← B.matmul ta tb (.num s) (.num t); B.matmul false tc x (.num u)) := fun ta tb tc s t u =>
      (hN ta tb s t).bind fun x hx => by obtain ⟨v, rfl⟩ := hx; exact (hN _ _ _ _).mono fun r hr => by obtain ⟨w, rfl⟩ := hr; rfl
    have two' : ∀ ta tb tc s t u, Post (fun r : Mat K => r.kind = none) (do let x ← B.matmul tb tc (.num t) (.num u); B.matmul ta false (.num s) x) := fun ta tb tc s t u =>
      (hN tb tc t u).bind fun x hx => by obtain ⟨v, rfl⟩ := hx; exact (hN _ _ _ _).mono fun r hr => by obtain ⟨w, rfl⟩ := hr; rfl
    exact Post.skip fun _ => Post.skip fun _ => Post.skip fun _ => Post.ite (two _ _ _ _ _ _) (two' _ _ _ _ _ _)
  | zero bt r c => exact Post.skip fun _ => Post.pure rfl
  | dense t => exact Post.skip fun _ => Post.skip fun _ => Post.pure rfl
  | diag t => exact Post.skip fun _ => hL.chol (.diag t) (by simp [Mat.kind])
  | const t r c => exact Post.skip fun _ => hL.chol (.const t r c) (by simp [Mat.kind])
  | lr l r m => exact Post.skip fun _ => Post.skip fun _ => Post.skip fun _ => Post.pure rfl
  | wb d l r m => exact Post.skip fun _ => Post.skip fun _ => Post.skip fun _ => Post.pure rfl
  | kron l r => exact Post.skip fun _ => Post.skip fun _ => Post.pure rfl
  | _ => exact Post.error

theorem lops_kinds (hB : AddKinds env B) (hM : MmKinds env B) (hD : ∀ t, Post (fun v => v.rank ≠ 0) (B.dense (.diag t)))
    (hN : ∀ ta tb s t, Post (fun r : Mat K => ∃ u, r = .num u) (B.matmul ta tb (.num s) (.num t))) (m : ℕ) : LKinds env (lops env lin B m) := by
  induction m with
  | zero => exact ⟨fun _ => Post.error, fun _ _ => Post.error, fun _ _ => Post.error, fun _ _ _ _ => Post.error, fun _ _ _ _ _ => Post.error, fun _ => Post.error⟩
  | succ m ih => exact ⟨kind_stepInv hB ih, kind_stepPdInv hB hD ih, kind_stepChol ih, kind_stepSolve hM ih, kind_stepCholSolve ih, kind_stepRoot hN ih⟩

end

theorem Cfg.lkinds (c : Cfg K) (lin : LinEnv K) (n m : ℕ) : LKinds c.code (lops c.code lin (ops c.code n) m) := by
  refine lops_kinds (ops_addKinds _ n) (ops_mmKinds _ n) (fun t => ?_) (fun ta tb s t => ?_) m
  · cases n with
    | zero => exact Post.error
    | succ n => intro v hv; change (Except.ok (diagC t) : E (Tensor K)) = .ok v at hv; cases hv; simp [Tensor.rank]
  · cases n with
    | zero => exact Post.error
    | succ n =>
      change Post _ (do return Mat.num (← nMatmul ta tb s t))
      exact Post.skip fun u => Post.pure ⟨u, rfl⟩

/-- C51.  The inverse has the class of the matrix. -/
theorem C51_inv (c : Cfg K) (lin : LinEnv K) {a r : Mat K} (h : LReturns c lin (fun _ L => L.inv a) r) : r.kind = a.kind := by
  obtain ⟨m, n, h⟩ := h
  exact (c.lkinds lin n m).inv a r h

/-- C51.  The inverse of a positive-definite Diagonal, Woodbury or Kronecker matrix has the class of the matrix; all others are Dense. -/
theorem C51_pd_inv (c : Cfg K) (lin : LinEnv K) {a r : Mat K} (ha : a.kind ≠ some .lr) (h : LReturns c lin (fun _ L => L.pdInv a) r) : r.kind = some (pdInvOut a.kind) := by
  obtain ⟨m, n, h⟩ := h
  exact (c.lkinds lin n m).pdInv a ha r h

/-- C51.  Cholesky factors of Dense and Woodbury matrices are LowerTriangular; Zero, Diagonal, Constant and Kronecker matrices keep their class. -/
theorem C51_cholesky (c : Cfg K) (lin : LinEnv K) {a r : Mat K} (ha : a.kind ≠ some .lr) (h : LReturns c lin (fun _ L => L.chol a) r) : r.kind = cholOut a.kind := by
  obtain ⟨m, n, h⟩ := h
  exact (c.lkinds lin n m).chol a ha r h

/-- C51.  Classes of solutions: those of the product with the inverse for Diagonal and Woodbury matrices, Dense for triangular ones; Zero for a Zero right-hand side. -/
theorem C51_solve (c : Cfg K) (lin : LinEnv K) {a b r : Mat K} (hab : a.isAM = true ∨ b.isAM = true) (hb : b.Valid) (h : LReturns c lin (fun _ L => L.solve a b) r) :
    r.kind ∈ solveOut (classOf c a) (classOf c b) := by
  obtain ⟨m, n, h⟩ := h
  rw [← classOf_eq, ← classOf_eq]
  exact (c.lkinds lin n m).solve a b hab (triRk_of_valid hb) r h

/-- C51.  Roots of LowRank and Woodbury matrices are Dense; all others keep the class. -/
theorem C51_root (c : Cfg K) (lin : LinEnv K) {a r : Mat K} (h : LReturns c lin (fun _ L => L.root a) r) : r.kind = rootOut a.kind := by
  obtain ⟨m, n, h⟩ := h
  exact (c.lkinds lin n m).root a r h

/-! ### Expressions -/

/-- Classes an expression can have (numeric arrays count as Dense), computed from the classes of its leaves. -/
def Expr.classes (c : Cfg K) : Expr K → List Kind
  | .mat a => [classOf c a]
  | .add e f | .sub e f => (e.classes c).flatMap fun k => (f.classes c).flatMap fun k' => addOut k k'
  | .mul e f => (e.classes c).flatMap fun k => (f.classes c).map fun k' => mulOut k k'
  | .matmul ta tb e f => (e.classes c).flatMap fun k => (f.classes c).flatMap fun k' => mmOut ta tb k k'
  | .neg e => e.classes c
  | .tr e => (e.classes c).map trKind
  | .scale x e => (e.classes c).flatMap fun k => if k = .dense then [mulOut (classOf c (.num (scalarT x))) k, .dense] else [mulOut (classOf c (.num (scalarT x))) k]
  | .shift e x => (e.classes c).flatMap fun k => addOut k (classOf c (.num (scalarT x)))

theorem Expr.eval_kinds (c : Cfg K) {env : Env K} {B : Ops K} (he0 : ∀ a : Mat K, kindC env a = classOf c a) (hB : B.Ok) (hD : B.Dg) (hA : AddKinds env B) (hU : MulKinds env B)
    (hM : MmKinds env B) (hn : ∀ s t, Post (fun r : Mat K => ∃ u, r = .num u) (B.add (.num s) (.num t)))
    (hn1 : ∀ s t, Post (fun r : Mat K => ∃ u, r = .num u) (B.mul (.num s) (.num t)))
    (hn2 : ∀ ta tb s t, Post (fun r : Mat K => ∃ u, r = .num u) (B.matmul ta tb (.num s) (.num t)))
    {S : Shp} (e : Expr K) {p q : ℕ} (ht : e.Typed S p q) {m : Mat K} (h : e.eval env B = .ok m) :
    classOf c m ∈ e.classes c := by
  have sem : ∀ (e : Expr K) {p q : ℕ} (_ : e.Typed S p q) {m : Mat K} (_ : e.eval env B = .ok m), Expr.Sem S p q m e.dense := fun e _ _ ht _ h => Expr.eval_sem hB hD e ht h
  have cls : ∀ {m : Mat K} {k : Kind}, m.kind = some k → classOf c m = k := fun {m k} hk => by
    cases m <;> simp [Mat.kind] at hk <;> subst hk <;> rfl
  have num : ∀ {m : Mat K}, 2 ≤ (den m).rank → m.isAM = false → classOf c m = .dense := fun {m} h2 hm => by
    cases m with
    | num t => have : t.rank ≠ 0 := by change 2 ≤ t.rank at h2; omega
               simp [classOf, this]
    | _ => simp [Mat.isAM] at hm
  have bin : ∀ {x y m : Mat K} (T : Kind → Kind → List Kind), 2 ≤ (den x).rank → 2 ≤ (den y).rank → 2 ≤ (den m).rank →
      (x.isAM = true ∨ y.isAM = true → KindIn (T (classOf c x) (classOf c y)) m) → (x.isAM = false → y.isAM = false → m.isAM = false) →
      Kind.dense ∈ T .dense .dense → classOf c m ∈ T (classOf c x) (classOf c y) := fun {x y m} T rx ry rm h1 h2 h3 => by
    by_cases hab : x.isAM = true ∨ y.isAM = true
    · obtain ⟨k, hk, e⟩ := h1 hab
      rwa [cls e]
    · rw [not_or, Bool.not_eq_true, Bool.not_eq_true] at hab
      rw [num rx hab.1, num ry hab.2, num rm (h2 hab.1 hab.2)]
      exact h3
  have isnum : ∀ {m : Mat K}, m.isAM = false → ∃ t, m = .num t := fun {m} hm => by
    cases m <;> first | exact ⟨_, rfl⟩ | simp [Mat.isAM] at hm
  have hs := sem e ht h
  have one : ∀ {x : Mat K}, 2 ≤ (den x).rank → x.isAM = false → ∃ t : Tensor K, x = .num t ∧ classOf c x = .dense := fun {x} h2 hx => by
    obtain ⟨t, rfl⟩ := isnum hx
    exact ⟨t, rfl, num h2 hx⟩
  induction e generalizing p q m with
  | mat a => simp only [Expr.eval, Except.ok.injEq] at h; subst h; simp [Expr.classes]
  | add e f he hf =>
    simp only [Expr.eval, bind_ok_iff] at h
    obtain ⟨x, hx, y, hy, h⟩ := h
    have sx := sem e ht.1 hx
    have sy := sem f ht.2 hy
    have := bin addOut sx.rank sy.rank hs.rank (fun hab => by rw [← he0, ← he0]; exact hA x y hab m h)
      (fun h1 h2 => by obtain ⟨s, rfl⟩ := isnum h1; obtain ⟨t, rfl⟩ := isnum h2; obtain ⟨u, rfl⟩ := hn s t m h; rfl) (by simp [addOut])
    exact List.mem_flatMap.2 ⟨_, he ht.1 hx sx, List.mem_flatMap.2 ⟨_, hf ht.2 hy sy, this⟩⟩
  | sub e f he hf =>
    simp only [Expr.eval, bind_ok_iff] at h
    obtain ⟨x, hx, y, hy, h⟩ := h
    have sx := sem e ht.1 hx
    have sy := sem f ht.2 hy
    have := bin addOut sx.rank sy.rank hs.rank (fun hab => by rw [← he0, ← he0]; exact kind_subtractM hA hab m h)
      (fun h1 h2 => by
        obtain ⟨s, rfl⟩ := isnum h1; obtain ⟨t, rfl⟩ := isnum h2
        simp only [subtractM, bind_ok_iff, pure_eq_ok] at h
        obtain ⟨_, _, rfl⟩ := h; rfl) (by simp [addOut])
    exact List.mem_flatMap.2 ⟨_, he ht.1 hx sx, List.mem_flatMap.2 ⟨_, hf ht.2 hy sy, this⟩⟩
  | mul e f he hf =>
    simp only [Expr.eval, bind_ok_iff] at h
    obtain ⟨x, hx, y, hy, h⟩ := h
    have sx := sem e ht.1 hx
    have sy := sem f ht.2 hy
    have := bin (fun k k' => [mulOut k k']) sx.rank sy.rank hs.rank (fun hab => by rw [← he0, ← he0]; exact ⟨_, List.mem_singleton.2 rfl, hU x y hab m h⟩)
      (fun h1 h2 => by obtain ⟨s, rfl⟩ := isnum h1; obtain ⟨t, rfl⟩ := isnum h2; obtain ⟨u, rfl⟩ := hn1 s t m h; rfl) (by simp [mulOut])
    exact List.mem_flatMap.2 ⟨_, he ht.1 hx sx, List.mem_map.2 ⟨_, hf ht.2 hy sy, (List.mem_singleton.1 this).symm⟩⟩
  | matmul ta tb e f he hf =>
    simp only [Expr.eval, bind_ok_iff] at h
    obtain ⟨x, hx, y, hy, h⟩ := h
    obtain ⟨k, t1, t2⟩ := ht
    obtain ⟨p1, q1, t1⟩ : ∃ p1 q1, e.Typed S p1 q1 := by cases ta <;> exact ⟨_, _, by simpa using t1⟩
    obtain ⟨p2, q2, t2⟩ : ∃ p2 q2, f.Typed S p2 q2 := by cases tb <;> exact ⟨_, _, by simpa using t2⟩
    have sx := sem e t1 hx
    have sy := sem f t2 hy
    have := bin (mmOut ta tb) sx.rank sy.rank hs.rank
      (fun hab => by rw [← he0, ← he0]; exact hM ta tb x y hab (triRk_of_valid ⟨_, sx.wf⟩) (triRk_of_valid ⟨_, sy.wf⟩) m h)
      (fun h1 h2 => by obtain ⟨s, rfl⟩ := isnum h1; obtain ⟨t, rfl⟩ := isnum h2; obtain ⟨u, rfl⟩ := hn2 ta tb s t m h; rfl) (by simp [mmOut])
    exact List.mem_flatMap.2 ⟨_, he t1 hx sx, List.mem_flatMap.2 ⟨_, hf t2 hy sy, this⟩⟩
  | neg e he =>
    simp only [Expr.eval, bind_ok_iff] at h
    obtain ⟨x, hx, h⟩ := h
    have sx := sem e ht hx
    have hk := kind_negativeM m h
    have := he ht hx sx
    show classOf c m ∈ e.classes c
    by_cases hm : x.isAM = true
    · cases hk' : x.kind with
      | none => cases x <;> simp [Mat.kind, Mat.isAM] at hk' hm
      | some k => rw [hk'] at hk; rwa [cls hk, ← cls hk']
    · obtain ⟨t, rfl, e1⟩ := one sx.rank (by simpa using hm)
      rw [e1] at this
      have hm' : m.isAM = false := by cases m <;> first | rfl | simp [Mat.kind] at hk
      rwa [num hs.rank hm']
  | tr e he =>
    simp only [Expr.eval, bind_ok_iff] at h
    obtain ⟨x, hx, h⟩ := h
    have sx := sem e ht hx
    have hk := C06_transpose_kind h
    refine List.mem_map.2 ⟨_, he ht hx sx, ?_⟩
    by_cases hm : x.isAM = true
    · cases hk' : x.kind with
      | none => cases x <;> simp [Mat.kind, Mat.isAM] at hk' hm
      | some k => rw [hk'] at hk; rw [cls hk, cls hk']
    · obtain ⟨t, rfl, e1⟩ := one sx.rank (by simpa using hm)
      rw [e1]
      have hm' : m.isAM = false := by cases m <;> first | rfl | simp [Mat.kind] at hk
      rw [num hs.rank hm']; rfl
  | scale v e he =>
    simp only [Expr.eval, bind_ok_iff] at h
    obtain ⟨x, hx, h⟩ := h
    have sx := sem e ht hx
    refine List.mem_flatMap.2 ⟨_, he ht hx sx, ?_⟩
    by_cases hm : x.isAM = true
    · have := hU (.num (scalarT v)) x (.inr hm) m h
      rw [cls this, he0, he0]
      split_ifs <;> simp
    · obtain ⟨t, rfl, e1⟩ := one sx.rank (by simpa using hm)
      obtain ⟨u, rfl⟩ := hn1 _ _ m h
      rw [e1, num hs.rank rfl]
      simp
  | shift e v he =>
    simp only [Expr.eval, bind_ok_iff] at h
    obtain ⟨x, hx, h⟩ := h
    have sx := sem e ht hx
    refine List.mem_flatMap.2 ⟨_, he ht hx sx, ?_⟩
    by_cases hm : x.isAM = true
    · obtain ⟨k, hk, e1⟩ := hA x (.num (scalarT v)) (.inl hm) m h
      rw [cls e1, ← he0, ← he0]
      exact hk
    · obtain ⟨t, rfl, e1⟩ := one sx.rank (by simpa using hm)
      obtain ⟨u, rfl⟩ := hn _ _ m h
      rw [e1, num hs.rank rfl]
      have : classOf c (.num (scalarT v)) = .zero ∨ classOf c (.num (scalarT v)) = .const := by
        simp only [classOf]
        rw [if_pos (by rfl)]
        split_ifs
        · exact .inl rfl
        · exact .inr rfl
      rcases this with e | e <;> rw [e] <;> simp [addOut]

/-- C51.  The class of a whole expression is among those computed from the classes of the leaves. -/
theorem C51_expression (c : Cfg K) {S : Shp} {p q : ℕ} {e : Expr K} {m : Mat K} (ht : e.Typed S p q)
    (hr : Returns c (e.eval c.code) m) (hx : Exact c (e.eval c.code)) : classOf c m ∈ e.classes c := by
  obtain ⟨n, h⟩ := hr.strict hx
  refine Expr.eval_kinds c (env := c.code) (fun a => ?_) (c.ok n) (ops_dg (strictEnv_lawful _ _) n) 
    (fun a b hab => ops_addKinds c.strict n a b hab) (fun a b hab => ops_mulKinds c.strict n a b hab) (fun ta tb a b hab => ops_mmKinds c.strict n ta tb a b hab) ?_ ?_ ?_ e ht h
  · exact classOf_eq c a
  · intro s t
    cases n with
    | zero => exact Post.error
    | succ n => exact (Post.skip fun u => Post.pure ⟨u, rfl⟩ : Post (fun r : Mat K => ∃ u, r = .num u) (do return Mat.num (← nAdd s t)))
  · intro s t
    cases n with
    | zero => exact Post.error
    | succ n => exact (Post.skip fun u => Post.pure ⟨u, rfl⟩ : Post (fun r : Mat K => ∃ u, r = .num u) (do return Mat.num (← nMul s t)))
  · intro ta tb s t
    cases n with
    | zero => exact Post.error
    | succ n => exact (Post.skip fun u => Post.pure ⟨u, rfl⟩ : Post (fun r : Mat K => ∃ u, r = .num u) (do return Mat.num (← nMatmul ta tb s t)))

/-! ### The hypotheses are met -/

/-- `2 * d + 1` is a Woodbury matrix, `(2 * d) @ u` upper triangular. -/
example : (Expr.shift (.scale 2 (.mat Ex.D)) 1).classes Ex.cfg = [.wb] ∧ (Expr.matmul false false (.scale 2 (.mat Ex.D)) (.mat Ex.U)).classes Ex.cfg = [.ut] := by
  decide +kernel

example : ∃ r, Returns Ex.cfg ((Expr.shift (.scale 2 (.mat Ex.D)) 1).eval Ex.cfg.code) r ∧ Exact Ex.cfg ((Expr.shift (.scale 2 (.mat Ex.D)) 1).eval Ex.cfg.code) :=
  Ex.meets (Expr.Calls_eval _ _) (n := 8) (by decide +kernel)

/-- The Cholesky factor of a Woodbury matrix exists in the example backend, and so does its inverse. -/
example : ∃ r, LReturns Ex.cfg Ex.lin (fun _ L => L.inv Ex.W) r ∧ r.kind = some .wb := by
  obtain ⟨r, h, _⟩ := Ex.lmeets (f := fun _ L => L.inv Ex.W) (LCalls.inv _) (n := 8) (m := 8) (by decide +kernel)
  exact ⟨r, h, C51_inv _ _ h⟩

example : ∃ r, Returns Ex.cfg (fun B => takeM B 3 Ex.W (.idx [-1, 0]) (-2)) r ∧ r.kind = some .dense := by
  obtain ⟨r, h, _⟩ := Ex.meets (f := fun B => takeM B 3 Ex.W (.idx [-1, 0]) (-2)) (Calls.take _ _ _ _) (n := 8) (by decide +kernel)
  exact ⟨r, h, C51_take Ex.cfg (k := 1) ⟨[], Ex.W_wf _⟩ ⟨by decide, by decide⟩ h⟩

end Verif
