/-
The class of a result (C09): which classes add, multiply and matmul return, by the classes of the operands.
-/
import Verif.Reject

set_option linter.unusedSectionVars false

namespace Verif

variable {K : Type} [Field K] [LinearOrder K]

/-! ### The tables -/

/-- Classes a sum can have. -/
def addOut : Kind → Kind → List Kind
  | .zero, .zero => [.zero]
  | .zero, .const | .const, .zero => [.const]
  | .zero, k | k, .zero => [k, .dense]
  | .diag, .diag => [.diag]
  | .const, .const => [.const]
  | .const, .diag | .diag, .const => [.wb]
  | .lt, .lt | .lt, .diag | .diag, .lt => [.lt]
  | .ut, .ut | .ut, .diag | .diag, .ut => [.ut]
  | .lr, .lr | .lr, .const | .const, .lr => [.lr, .zero]
  | .lr, .diag | .diag, .lr => [.wb]
  | .wb, .diag | .diag, .wb => [.wb]
  | .wb, .wb | .wb, .lr | .lr, .wb | .wb, .const | .const, .wb => [.wb, .diag, .dense]
  | _, _ => [.dense]

/-- The class of an element-wise product. -/
def mulOut : Kind → Kind → Kind
  | .zero, _ | _, .zero => .zero
  | .diag, _ | _, .diag => .diag
  | .lt, .ut | .ut, .lt => .diag
  | .lt, _ | _, .lt => .lt
  | .ut, _ | _, .ut => .ut
  | .const, .const => .const
  | .const, .lr | .lr, .const | .lr, .lr => .lr
  | .const, .wb | .wb, .const | .lr, .wb | .wb, .lr | .wb, .wb => .wb
  | .const, .kron | .kron, .const | .kron, .kron => .kron
  | _, _ => .dense

/-- Classes a matrix product can have.  Transposing swaps the triangular classes; the product of triangular matrices is only recognised as
triangular if both are of the same class and both or neither are transposed. -/
def mmOut (ta tb : Bool) : Kind → Kind → List Kind
  | .zero, _ | _, .zero => [.zero]
  | .diag, .diag => [.diag]
  | .const, .const => [.const]
  | .lt, .lt => if ta = tb then [if ta then .ut else .lt] else [.dense]
  | .ut, .ut => if ta = tb then [if ta then .lt else .ut] else [.dense]
  | .lt, .diag => [if ta then .ut else .lt]
  | .ut, .diag => [if ta then .lt else .ut]
  | .diag, .lt => [if tb then .ut else .lt]
  | .diag, .ut => [if tb then .lt else .ut]
  | .kron, .kron => [.kron]
  | .wb, .diag | .diag, .wb => [.wb]
  | .wb, .wb => [.wb, .diag, .dense]
  | .wb, .lr | .lr, .wb | .wb, .const | .const, .wb => [.lr, .zero]
  | .wb, _ | _, .wb => [.dense]
  | .lr, _ | _, .lr | .const, _ | _, .const => [.lr]
  | _, _ => [.dense]

/-- The result has one of the classes `l`. -/
def KindIn (l : List Kind) (r : Mat K) : Prop := ∃ k ∈ l, r.kind = some k

theorem KindIn.mono {l l' : List Kind} {r : Mat K} (h : KindIn l r) (hl : l ⊆ l') : KindIn l' r := by
  obtain ⟨k, hk, e⟩ := h
  exact ⟨k, hl hk, e⟩

theorem kindIn_of {k : Kind} {l : List Kind} {r : Mat K} (h : r.kind = some k) (hk : k ∈ l) : KindIn l r := ⟨k, hk, h⟩

/-! ### Addition -/

theorem kind_mkLT {t : Tensor K} : Post (fun r : Mat K => r.kind = some .lt) (mkLT t) := fun r h => by
  simp only [mkLT_ok] at h; rw [← h.2]; rfl
theorem kind_mkUT {t : Tensor K} : Post (fun r : Mat K => r.kind = some .ut) (mkUT t) := fun r h => by
  simp only [mkUT_ok] at h; rw [← h.2]; rfl
theorem kind_mkDiag {t : Tensor K} : Post (fun r : Mat K => r.kind = some .diag) (mkDiag t) := fun r h => by
  simp only [mkDiag_ok] at h; rw [← h.2]; rfl
theorem kind_mkConst {t : Tensor K} {s : Shp} : Post (fun r : Mat K => r.kind = some .const) (mkConst t s) := by
  unfold mkConst
  split
  · exact Post.ok rfl
  · exact Post.skip fun _ => Post.skip fun _ => Post.pure rfl
  · exact Post.error
theorem kind_mkZero {s : Shp} : Post (fun r : Mat K => r.kind = some .zero) (mkZero s) := fun r h => by
  obtain ⟨_, _, _, _, rfl⟩ := post_mkZero s r h
  rfl
theorem kind_mkLR {l r m : Mat K} : Post (fun x : Mat K => x.kind = some .lr) (mkLR l r m) := fun x h => by
  rw [post_mkLR _ _ _ _ h]; rfl
theorem kind_mkWB {d : Tensor K} {l r m : Mat K} : Post (fun x : Mat K => x.kind = some .wb) (mkWB d l r m) := fun x h => by
  rw [post_mkWB _ _ _ _ _ h]; rfl
theorem kind_broadcastBatchTo {s : Shp} {a : Mat K} {k : Kind} (hk : a.kind = some k) : Post (fun r : Mat K => r.kind = some k) (broadcastBatchTo s a) := fun r h => by
  cases a with
  | num t => simp [Mat.kind] at hk
  | zero bt r c => simp only [broadcastBatchTo, Except.ok.injEq] at h; subst h; exact hk
  | dense t => simp only [broadcastBatchTo, bind_ok_iff, pure_eq_ok] at h; obtain ⟨_, _, rfl⟩ := h; exact hk
  | diag t => simp only [broadcastBatchTo, bind_ok_iff] at h; obtain ⟨_, _, h⟩ := h; rw [kind_mkDiag _ h]; exact hk
  | const t r c => simp only [broadcastBatchTo, bind_ok_iff, pure_eq_ok] at h; obtain ⟨_, _, rfl⟩ := h; exact hk
  | lt t => simp only [broadcastBatchTo, bind_ok_iff] at h; obtain ⟨_, _, h⟩ := h; rw [kind_mkLT _ h]; exact hk
  | ut t => simp only [broadcastBatchTo, bind_ok_iff] at h; obtain ⟨_, _, h⟩ := h; rw [kind_mkUT _ h]; exact hk
  | lr l r m => simp only [broadcastBatchTo, bind_ok_iff] at h; obtain ⟨_, _, _, _, _, _, h⟩ := h; rw [kind_mkLR _ h]; exact hk
  | wb d l r m => simp only [broadcastBatchTo, bind_ok_iff] at h; obtain ⟨_, _, _, _, _, _, _, _, _, _, _, _, h⟩ := h; rw [kind_mkWB _ h]; exact hk
  | kron l r => simp only [broadcastBatchTo, bind_ok_iff, pure_eq_ok] at h; obtain ⟨_, _, _, _, rfl⟩ := h; exact hk
  | tiled => simp [broadcastBatchTo] at h

/-- `B.broadcast_to` keeps the class or returns a Dense matrix; Zero and Constant are kept. -/
theorem kind_broadcastTo {B : Ops K} {a : Mat K} {s : Shp} {k : Kind} (hk : a.kind = some k) :
    Post (KindIn (if k = .zero ∨ k = .const then [k] else [k, .dense])) (broadcastTo B a s) := by
  have hin : k ∈ (if k = .zero ∨ k = .const then [k] else [k, .dense]) := by split_ifs <;> simp
  have hd : k ≠ .zero → k ≠ .const → Kind.dense ∈ (if k = .zero ∨ k = .const then [k] else [k, .dense]) := fun h1 h2 => by simp [h1, h2]
  generalize (if k = .zero ∨ k = .const then [k] else [k, .dense]) = L at hin hd
  unfold broadcastTo
  refine Post.skip fun sa => Post.ite (Post.ok ⟨k, hin, hk⟩) ?_
  have g : ∀ (h1 : k ≠ .zero) (h2 : k ≠ .const), Post (KindIn L)
      (if List.take 2 sa = List.take 2 s then broadcastBatchTo (List.drop 2 s) a else do
        let d ← B.dense a
        let t ← nBroadcastTo s d
        pure (mkDense t)) := fun h1 h2 =>
    Post.ite ((kind_broadcastBatchTo hk).mono fun r hr => ⟨_, hin, hr⟩) (Post.skip fun _ => Post.skip fun _ => Post.pure ⟨.dense, hd h1 h2, rfl⟩)
  cases a with
  | num t => simp [Mat.kind] at hk
  | zero bt r c => exact Post.skip fun _ => kind_mkZero.mono fun r hr => ⟨_, hin, hr.trans hk⟩
  | const t r c => exact Post.skip fun _ => kind_mkConst.mono fun r hr => ⟨_, hin, hr.trans hk⟩
  | _ => exact g (by rintro rfl; simp [Mat.kind] at hk) (by rintro rfl; simp [Mat.kind] at hk)

theorem kind_constToLR {t : Tensor K} {r c : ℕ} : Post (fun x : Mat K => x.kind = some .lr) (constToLR t r c) := fun x h => by
  obtain ⟨_, _, _, _, rfl⟩ := post_constToLR _ _ _ _ h
  rfl

/-- Table for the results of addition, unconditionally. -/
def AddKinds (env : Env K) (B : Ops K) : Prop :=
  ∀ a b : Mat K, a.isAM = true ∨ b.isAM = true → Post (KindIn (addOut (kindC env a) (kindC env b))) (B.add a b)

theorem AddKinds.am {env : Env K} {B : Ops K} (h : AddKinds env B) {a b : Mat K} {k k' : Kind} (ha : a.kind = some k) (hb : b.kind = some k') :
    Post (KindIn (addOut k k')) (B.add a b) := by
  have := h a b (.inl (by cases a <;> simp_all [Mat.kind, Mat.isAM]))
  rwa [kindC_am ha, kindC_am hb] at this

theorem addOut_comm (k k' : Kind) : addOut k k' = addOut k' k := by cases k <;> cases k' <;> rfl

theorem addRun_kinds {env : Env K} {B : Ops K} (hB : AddKinds env B) {a b : Mat K} {k k' : Kind} (ha : a.kind = some k) (hb : b.kind = some k') :
    Post (KindIn (addOut k k')) (addRun env B (addId k k') a b) := by
  generalize e : addId k k' = m
  unfold addRun
  split
  · refine Post.skip fun _ => Post.skip fun _ => Post.skip fun _ => ?_
    split
    · refine Post.skip fun _ => (kind_broadcastTo ha).mono fun r hr => hr.mono ?_
      obtain rfl : k' = .zero := by simpa [Mat.kind] using hb.symm
      clear e hr; cases k <;> decide
    · exact Post.error
  · refine Post.skip fun _ => Post.skip fun _ => Post.skip fun _ => ?_
    split
    · refine Post.skip fun _ => (kind_broadcastTo hb).mono fun r hr => hr.mono ?_
      obtain rfl : k = .zero := by simpa [Mat.kind] using ha.symm
      clear e hr; cases k' <;> decide
    · exact Post.error
  · refine Post.skip fun _ => Post.skip fun _ => Post.skip fun _ => Post.pure (kindIn_of (k := .dense) rfl ?_)
    clear ha hb; revert e; cases k <;> cases k' <;> decide
  all_goals first
    | (obtain rfl : _ = k := by simpa [Mat.kind] using ha
       obtain rfl : _ = k' := by simpa [Mat.kind] using hb)
    | skip
  · exact Post.skip fun _ => Post.pure (kindIn_of (k := .dense) rfl (by decide))
  · exact Post.skip fun _ => kind_mkDiag.mono fun r hr => kindIn_of hr (by decide)
  · exact Post.skip fun _ => Post.skip fun _ => Post.skip fun _ => kind_mkConst.mono fun r hr => kindIn_of hr (by decide)
  · obtain rfl : .const = k := by simpa [Mat.kind] using ha
    refine Post.skip fun _ => Post.skip fun _ => Post.skip fun _ => Post.skip fun _ => Post.pure (kindIn_of (k := .dense) rfl ?_)
    clear ha hb; revert e; cases k' <;> decide
  · refine Post.skip fun _ => Post.skip fun _ => Post.skip fun _ => Post.skip fun _ => kind_constToLR.bind fun x hx => ?_
    exact (hB.am (k := .lr) (k' := .diag) hx rfl).mono fun r hr => hr.mono (by decide)
  · rw [addOut_comm]
    exact hB.am hb ha
  · exact Post.skip fun _ => kind_mkLT.mono fun r hr => kindIn_of hr (by decide)
  · exact Post.skip fun _ => Post.skip fun _ => kind_mkLT.mono fun r hr => kindIn_of hr (by decide)
  · exact Post.skip fun _ => kind_mkUT.mono fun r hr => kindIn_of hr (by decide)
  · exact Post.skip fun _ => Post.pure (kindIn_of (k := .dense) rfl (by decide))
  · exact Post.skip fun _ => Post.skip fun _ => kind_mkUT.mono fun r hr => kindIn_of hr (by decide)
  · unfold addLRLR
    refine Post.skip fun _ => Post.skip fun _ => Post.skip fun _ => Post.skip fun _ => Post.skip fun _ => Post.skip fun _ => Post.skip fun _ =>
      Post.skip fun _ => Post.skip fun _ => ?_
    iterate 19 refine Post.skip fun _ => ?_
    refine kind_mkLR.bind fun x hx => Post.skip fun _ => Post.skip fun _ => Post.ite ?_ (Post.pure (kindIn_of hx (by decide)))
    exact Post.skip fun _ => kind_mkZero.mono fun r hr => kindIn_of hr (by decide)
  · refine Post.skip fun _ => kind_constToLR.bind fun x hx => ?_
    exact (hB.am (k := .lr) (k' := .lr) rfl hx).mono fun r hr => hr.mono (by decide)
  · exact kind_mkWB.mono fun r hr => kindIn_of hr (by decide)
  · exact kind_mkWB.mono fun r hr => kindIn_of hr (by decide)
  · refine (hB.am (k := .diag) (k' := .diag) rfl rfl).bind fun x hx => (hB.am (k := .lr) (k' := .lr) rfl rfl).bind fun y hy => ?_
    obtain ⟨k1, h1, hx⟩ := hx
    obtain ⟨k2, h2, hy⟩ := hy
    refine (hB.am hx hy).mono fun r hr => hr.mono ?_
    revert h1 h2; cases k1 <;> cases k2 <;> decide
  · refine (hB.am (k := .diag) (k' := .diag) rfl rfl).bind fun x hx => ?_
    obtain ⟨k1, h1, hx⟩ := hx
    refine (hB.am (k' := .lr) hx rfl).mono fun r hr => hr.mono ?_
    revert h1; cases k1 <;> decide
  · obtain rfl : .wb = k := by simpa [Mat.kind] using ha
    refine (hB.am (k := .lr) rfl hb).bind fun y hy => ?_
    obtain ⟨k2, h2, hy⟩ := hy
    refine (hB.am (k := .diag) rfl hy).mono fun r hr => hr.mono ?_
    clear hb ha hr hy
    revert e h2; cases k' <;> cases k2 <;> decide
  · exact Post.error

theorem isAM_not_num {a b : Mat K} (h : ∀ x y : Tensor K, a = .num x → b = .num y → False) : a.isAM = true ∨ b.isAM = true := by
  cases a <;> cases b <;> simp_all [Mat.isAM]

theorem ops_addKinds (env : Env K) (n : ℕ) : AddKinds env (ops env n) := by
  induction n with
  | zero => exact fun _ _ _ => Post.error
  | succ n ih =>
    intro a b hab
    show Post _ (stepAdd env (ops env n) a b)
    unfold stepAdd
    split
    · simp [Mat.isAM] at hab
    · simp only [kind_convertAM]
      exact addRun_kinds ih (kind_convertAM env _) (kind_convertAM env _)

/-! ### Multiplication -/

/-- Table for the results of element-wise multiplication, unconditionally. -/
def MulKinds (env : Env K) (B : Ops K) : Prop :=
  ∀ a b : Mat K, a.isAM = true ∨ b.isAM = true → Post (fun r => r.kind = some (mulOut (kindC env a) (kindC env b))) (B.mul a b)

theorem MulKinds.am {env : Env K} {B : Ops K} (h : MulKinds env B) {a b : Mat K} {k k' : Kind} (ha : a.kind = some k) (hb : b.kind = some k') :
    Post (fun r => r.kind = some (mulOut k k')) (B.mul a b) := by
  have := h a b (.inl (by cases a <;> simp_all [Mat.kind, Mat.isAM]))
  rwa [kindC_am ha, kindC_am hb] at this

theorem mulOut_comm (k k' : Kind) : mulOut k k' = mulOut k' k := by cases k <;> cases k' <;> rfl

theorem kind_broadcastTo_zero {B : Ops K} {bt : Shp} {r c : ℕ} {s : Shp} :
    Post (fun x : Mat K => x.kind = some .zero) (broadcastTo B (.zero bt r c) s) :=
  (kind_broadcastTo (a := .zero bt r c) rfl).mono fun x hx => by simpa [KindIn] using hx

theorem mulRun_kinds {env : Env K} {B : Ops K} (hA : AddKinds env B) (hB : MulKinds env B) {a b : Mat K} {k k' : Kind} (ha : a.kind = some k) (hb : b.kind = some k') :
    Post (fun r => r.kind = some (mulOut k k')) (mulRun B (mulId k k') a b) := by
  generalize e : mulId k k' = m
  unfold mulRun
  split
  · refine Post.skip fun _ => Post.skip fun _ => Post.skip fun _ => ?_
    split
    · refine Post.skip fun _ => kind_broadcastTo_zero.mono fun r hr => hr.trans ?_
      obtain rfl : k' = .zero := by simpa [Mat.kind] using hb.symm
      cases k <;> rfl
    · exact Post.error
  · refine Post.skip fun _ => Post.skip fun _ => Post.skip fun _ => ?_
    split
    · refine Post.skip fun _ => kind_broadcastTo_zero.mono fun r hr => hr.trans ?_
      obtain rfl : k = .zero := by simpa [Mat.kind] using ha.symm
      cases k' <;> rfl
    · exact Post.error
  · refine Post.skip fun _ => Post.skip fun _ => Post.skip fun _ => Post.pure ?_
    clear ha hb; revert e; cases k <;> cases k' <;> first | (intro; rfl) | (intro e; exact absurd e (by decide))
  all_goals first
    | (obtain rfl : _ = k := by simpa [Mat.kind] using ha
       obtain rfl : _ = k' := by simpa [Mat.kind] using hb)
    | skip
  · exact Post.skip fun _ => Post.pure rfl
  · exact Post.skip fun _ => kind_mkDiag
  · obtain rfl : .diag = k := by simpa [Mat.kind] using ha
    unfold mulDiagAm
    rename_i d
    have h : ∀ x : Tensor K, Post (fun r : Mat K => r.kind = some (mulOut .diag k')) (do mkDiag (← nMul d x)) := fun x => Post.skip fun _ =>
      kind_mkDiag.mono fun r hr => hr.trans (by clear ha hb hr; revert e; cases k' <;> first | (intro; rfl) | (intro e; exact absurd e (by decide)))
    refine Post.skip fun _ => Post.skip fun _ => Post.skip fun _ => Post.skip fun _ => ?_
    exact Post.ite (Post.skip fun _ => Post.skip fun _ => h _) (Post.ite (Post.skip fun _ => Post.skip fun _ => h _) (Post.skip fun _ => h _))
  · rw [mulOut_comm]
    exact hB.am hb ha
  · exact Post.skip fun _ => Post.skip fun _ => Post.skip fun _ => kind_mkConst
  · obtain rfl : .const = k := by simpa [Mat.kind] using ha
    refine Post.skip fun _ => Post.skip fun _ => Post.skip fun _ => Post.skip fun _ => Post.skip fun _ => Post.skip fun _ => Post.skip fun _ => Post.pure ?_
    clear ha hb; revert e; cases k' <;> first | (intro; rfl) | (intro e; exact absurd e (by decide))
  · exact Post.skip fun _ => Post.skip fun _ => Post.skip fun _ => Post.skip fun _ => kind_mkDiag
  · exact Post.skip fun _ => kind_mkLT
  · obtain rfl : .lt = k := by simpa [Mat.kind] using ha
    refine Post.skip fun _ => Post.skip fun _ => kind_mkLT.mono fun r hr => hr.trans ?_
    clear ha hb; revert e; cases k' <;> first | (intro; rfl) | (intro e; exact absurd e (by decide))
  · exact Post.skip fun _ => kind_mkLT
  · exact Post.skip fun _ => kind_mkUT
  · exact Post.skip fun _ => Post.skip fun _ => Post.skip fun _ => kind_mkDiag
  · obtain rfl : .ut = k := by simpa [Mat.kind] using ha
    refine Post.skip fun _ => Post.skip fun _ => kind_mkUT.mono fun r hr => hr.trans ?_
    clear ha hb; revert e; cases k' <;> first | (intro; rfl) | (intro e; exact absurd e (by decide))
  · exact Post.skip fun _ => kind_mkUT
  · unfold mulLRLR
    iterate 21 refine Post.skip fun _ => ?_
    exact kind_mkLR
  · exact Post.skip fun _ => Post.skip fun _ => Post.skip fun _ => Post.skip fun _ => kind_mkLR
  · obtain rfl : .wb = k := by simpa [Mat.kind] using ha
    refine (hB.am (k := .diag) rfl hb).bind fun x hx => (hB.am (k := .lr) rfl hb).bind fun y hy => (hA.am hx hy).mono fun r hr => ?_
    obtain ⟨k2, h2, hr⟩ := hr
    refine hr.trans (congrArg some ?_)
    clear ha hb hx hy hr; revert e h2; cases k' <;> cases k2 <;> decide
  · exact Post.skip fun _ => Post.skip fun _ => Post.skip fun _ => Post.skip fun _ => Post.skip fun _ => Post.skip fun _ => Post.skip fun _ => Post.pure rfl
  · exact Post.skip fun _ => Post.skip fun _ => Post.skip fun _ => Post.skip fun _ => Post.pure rfl
  · exact Post.error

theorem ops_mulKinds (env : Env K) (n : ℕ) : MulKinds env (ops env n) := by
  induction n with
  | zero => exact fun _ _ _ => Post.error
  | succ n ih =>
    intro a b hab
    show Post _ (stepMul env (ops env n) a b)
    unfold stepMul
    split
    · simp [Mat.isAM] at hab
    · simp only [kind_convertAM]
      exact mulRun_kinds (ops_addKinds env n) ih (kind_convertAM env _) (kind_convertAM env _)

/-! ### Matrix multiplication -/

/-- The payload of a triangular matrix is not a scalar. -/
def TriRk : Mat K → Prop
  | .lt t | .ut t => t.rank ≠ 0
  | _ => True

/-- Table for the results of matrix multiplication. -/
def MmKinds (env : Env K) (B : Ops K) : Prop :=
  ∀ (ta tb : Bool) (a b : Mat K), a.isAM = true ∨ b.isAM = true → TriRk a → TriRk b →
    Post (KindIn (mmOut ta tb (kindC env a) (kindC env b))) (B.matmul ta tb a b)

theorem MmKinds.am {env : Env K} {B : Ops K} (h : MmKinds env B) (ta tb : Bool) {a b : Mat K} {k k' : Kind} (ta' : TriRk a) (tb' : TriRk b)
    (ha : a.kind = some k) (hb : b.kind = some k') :
    Post (KindIn (mmOut ta tb k k')) (B.matmul ta tb a b) := by
  have := h ta tb a b (.inl (by cases a <;> simp_all [Mat.kind, Mat.isAM])) ta' tb'
  rwa [kindC_am ha, kindC_am hb] at this

/-- `B.dense` of a Kronecker product is not a scalar. -/
def KronRk (B : Ops K) : Prop := ∀ l r : Mat K, Post (fun t => t.rank ≠ 0) (B.dense (.kron l r))

theorem ops_kronRk (env : Env K) (n : ℕ) : KronRk (ops env n) := by
  intro l r
  cases n with
  | zero => exact Post.error
  | succ n => exact Post.skip fun _ => Post.skip fun _ => Post.skip fun _ => Post.pure (by simp [kronT, Tensor.rank])

theorem kindC_num_rk {env : Env K} {t : Tensor K} (h : t.rank ≠ 0) : kindC env (.num t) = .dense := by
  simp [kindC, convertAM, h, mkDense, Mat.kind]

theorem MmKinds.numL {env : Env K} {B : Ops K} (h : MmKinds env B) (ta tb : Bool) {t : Tensor K} {b : Mat K} {k : Kind} (ht : t.rank ≠ 0) (tb' : TriRk b)
    (hb : b.kind = some k) : Post (KindIn (mmOut ta tb .dense k)) (B.matmul ta tb (.num t) b) := by
  have := h ta tb (.num t) b (.inr (by cases b <;> simp_all [Mat.kind, Mat.isAM])) trivial tb'
  rwa [kindC_num_rk ht, kindC_am hb] at this

theorem MmKinds.numR {env : Env K} {B : Ops K} (h : MmKinds env B) (ta tb : Bool) {t : Tensor K} {a : Mat K} {k : Kind} (ht : t.rank ≠ 0) (ta' : TriRk a)
    (ha : a.kind = some k) : Post (KindIn (mmOut ta tb k .dense)) (B.matmul ta tb a (.num t)) := by
  have := h ta tb a (.num t) (.inl (by cases a <;> simp_all [Mat.kind, Mat.isAM])) ta' trivial
  rwa [kindC_num_rk ht, kindC_am ha] at this

/-- Transposing keeps the class, up to swapping the triangular ones. -/
theorem kind_trM {t : Bool} {a : Mat K} {k : Kind} (hk : a.kind = some k) : Post (fun r : Mat K => r.kind = some (if t then trKind k else k)) (trM t a) := fun r h => by
  cases t with
  | false => simp only [trM, Bool.false_eq_true, if_false, Except.ok.injEq] at h; subst h; simpa using hk
  | true =>
    simp only [trM, if_true] at h
    rcases kind_transposeM h with e | ⟨e1, e2⟩ | ⟨e1, e2⟩
    · rw [e, hk]
      cases a with
      | lt t => simp only [transposeM, mkUT_ok] at h; rw [← h.2] at e; simp [Mat.kind] at e
      | ut t => simp only [transposeM, mkLT_ok] at h; rw [← h.2] at e; simp [Mat.kind] at e
      | num t => simp [Mat.kind] at hk
      | _ => simp only [Mat.kind, Option.some.injEq] at hk; subst hk; rfl
    · rw [e1] at hk; cases hk; rw [e2]; rfl
    · rw [e1] at hk; cases hk; rw [e2]; rfl

theorem triRk_trM {t : Bool} {a : Mat K} (ha : TriRk a) : Post (fun r : Mat K => TriRk r) (trM t a) := fun r h => by
  cases t with
  | false => simp only [trM, Bool.false_eq_true, if_false, Except.ok.injEq] at h; subst h; exact ha
  | true =>
    simp only [trM, if_true] at h
    rcases kind_transposeM h with e | ⟨e1, e2⟩ | ⟨e1, e2⟩
    · cases a with
      | lt t => simp only [transposeM, mkUT_ok] at h; rw [← h.2] at e; simp [Mat.kind] at e
      | ut t => simp only [transposeM, mkLT_ok] at h; rw [← h.2] at e; simp [Mat.kind] at e
      | _ => cases r <;> simp_all [Mat.kind, TriRk]
    · cases a <;> simp [Mat.kind] at e1
      simp only [transposeM, mkUT_ok] at h; rw [← h.2]; intro h0; exact absurd h.1 (by rw [h0]; decide)
    · cases a <;> simp [Mat.kind] at e1
      simp only [transposeM, mkLT_ok] at h; rw [← h.2]; intro h0; exact absurd h.1 (by rw [h0]; decide)

theorem wbmm_left (ta tb : Bool) (k' : Kind) : mmId .wb k' = some .wbAm → ∀ k1 ∈ mmOut ta tb .diag k', ∀ k2 ∈ mmOut ta tb .lr k', addOut k1 k2 ⊆ mmOut ta tb .wb k' := by
  cases ta <;> cases tb <;> cases k' <;> decide
theorem wbmm_right (ta tb : Bool) (k : Kind) : mmId k .wb = some .amWb → ∀ k1 ∈ mmOut ta tb k .diag, ∀ k2 ∈ mmOut ta tb k .lr, addOut k1 k2 ⊆ mmOut ta tb k .wb := by
  cases ta <;> cases tb <;> cases k <;> decide

theorem amKron_out (ta tb : Bool) (k k' : Kind) : mmId k k' = some .amKron → ∀ k1 ∈ mmOut (!tb) (!ta) k' k, trKind k1 ∈ mmOut ta tb k k' := by
  cases ta <;> cases tb <;> cases k <;> cases k' <;> decide

theorem lrLr_out {ta tb : Bool} {k k' : Kind} {m : MmM} (h : mmId k k' = some m) : m = .lrLr ∨ m = .lrAm ∨ m = .amLr → Kind.lr ∈ mmOut ta tb k k' := by
  revert h; rintro h (rfl | rfl | rfl) <;> revert h <;> cases k <;> cases k' <;> cases ta <;> cases tb <;> decide

set_option maxHeartbeats 1000000 in
theorem mmRun_kinds {env : Env K} {B : Ops K} (hA : AddKinds env B) (hM : MulKinds env B) (hB : MmKinds env B) (hk : KronRk B) {a b : Mat K} {k k' : Kind}
    (ta tb : Bool) (ra : TriRk a) (rb : TriRk b) (ha : a.kind = some k) (hb : b.kind = some k') {m : MmM} (e : mmId k k' = some m) :
    Post (KindIn (mmOut ta tb k k')) (mmRun B m ta tb a b) := by
  unfold mmRun
  split
  · obtain rfl : .zero = k' := by simpa [Mat.kind] using hb
    exact Post.skip fun _ => Post.skip fun _ => Post.skip fun _ => Post.skip fun _ => Post.skip fun _ => Post.pure (kindIn_of (k := .zero) rfl (by clear * -; cases k <;> cases ta <;> cases tb <;> decide))
  · obtain rfl : .zero = k := by simpa [Mat.kind] using ha
    exact Post.skip fun _ => Post.skip fun _ => Post.skip fun _ => Post.skip fun _ => Post.skip fun _ => Post.pure (kindIn_of (k := .zero) rfl (by clear * -; cases k' <;> cases ta <;> cases tb <;> decide))
  all_goals first
    | (obtain rfl : _ = k := by simpa [Mat.kind] using ha
       obtain rfl : _ = k' := by simpa [Mat.kind] using hb)
    | skip
  · exact Post.skip fun _ => Post.pure (kindIn_of (k := .dense) rfl (by cases ta <;> cases tb <;> decide))
  · exact Post.skip fun _ => Post.skip fun _ => kind_mkDiag.mono fun r hr => kindIn_of hr (by cases ta <;> cases tb <;> decide)
  · obtain rfl : .diag = k := by simpa [Mat.kind] using ha
    refine Post.skip fun _ => (kind_trM hb).bind fun x hx => (hM.am (k := .dense) rfl hx).mono fun r hr => kindIn_of hr ?_
    clear ha hb ra rb hx hr; revert e; cases k' <;> cases ta <;> cases tb <;> decide
  · obtain rfl : .diag = k' := by simpa [Mat.kind] using hb
    refine Post.skip fun _ => (kind_trM ha).bind fun x hx => (hM.am (k' := .dense) hx rfl).mono fun r hr => kindIn_of hr ?_
    clear ha hb ra rb hx hr; revert e; cases k <;> cases ta <;> cases tb <;> decide
  · exact Post.skip fun _ => Post.skip fun _ => Post.pure (kindIn_of (k := .const) rfl (by cases ta <;> cases tb <;> decide))
  · obtain rfl : .const = k := by simpa [Mat.kind] using ha
    refine Post.skip fun _ => Post.skip fun _ => Post.skip fun _ => Post.skip fun _ => kind_mkLR.mono fun r hr => kindIn_of hr ?_
    clear ha hb ra rb hr; revert e; cases k' <;> cases ta <;> cases tb <;> decide
  · obtain rfl : .const = k' := by simpa [Mat.kind] using hb
    refine Post.skip fun _ => Post.skip fun _ => Post.skip fun _ => Post.skip fun _ => kind_mkLR.mono fun r hr => kindIn_of hr ?_
    clear ha hb ra rb hr; revert e; cases k <;> cases ta <;> cases tb <;> decide
  · -- ltLt
    split_ifs with h
    · obtain ⟨rfl, rfl⟩ := h
      exact Post.skip fun _ => kind_mkLT.mono fun r hr => kindIn_of hr (by decide)
    · refine Post.bind (P := fun x => x.kind = some (if ta then .ut else .lt) ∧ TriRk x) (fun x hx => ⟨kind_trM ha _ hx, triRk_trM ra _ hx⟩) fun x hx =>
        Post.bind (P := fun x => x.kind = some (if tb then .ut else .lt) ∧ TriRk x) (fun x hx => ⟨kind_trM hb _ hx, triRk_trM rb _ hx⟩) fun y hy =>
        (hB.am _ _ hx.2 hy.2 hx.1 hy.1).mono fun r hr => hr.mono ?_
      clear ha hb ra rb hx hy hr; revert h; cases ta <;> cases tb <;> decide
  · -- ltAm
    split
    · obtain rfl : .lt = k := by simpa [Mat.kind] using ha
      refine (hB.numL _ _ ra rb hb).mono fun r hr => hr.mono ?_
      clear ha hb ra rb hr; revert e; cases k' <;> cases ta <;> cases tb <;> decide
    · obtain rfl : .ut = k := by simpa [Mat.kind] using ha
      refine (hB.numL _ _ ra rb hb).mono fun r hr => hr.mono ?_
      clear ha hb ra rb hr; revert e; cases k' <;> cases ta <;> cases tb <;> decide
    · exact Post.error
  · -- amLt
    split
    · obtain rfl : .lt = k' := by simpa [Mat.kind] using hb
      refine (hB.numR _ _ rb ra ha).mono fun r hr => hr.mono ?_
      clear ha hb ra rb hr; revert e; cases k <;> cases ta <;> cases tb <;> decide
    · obtain rfl : .ut = k' := by simpa [Mat.kind] using hb
      refine (hB.numR _ _ rb ra ha).mono fun r hr => hr.mono ?_
      clear ha hb ra rb hr; revert e; cases k <;> cases ta <;> cases tb <;> decide
    · exact Post.error
  · split_ifs with h
    · subst h
      exact Post.skip fun _ => Post.skip fun _ => kind_mkLT.mono fun r hr => kindIn_of hr (by cases tb <;> decide)
    · refine Post.bind (P := fun x => x.kind = some (if ta then .ut else .lt) ∧ TriRk x) (fun x hx => ⟨kind_trM ha _ hx, triRk_trM ra _ hx⟩) fun x hx =>
        (hB.am (k' := .diag) _ _ hx.2 rb hx.1 rfl).mono fun r hr => hr.mono ?_
      clear ha hb ra rb hx hr; revert h; cases ta <;> cases tb <;> decide
  · split_ifs with h
    · subst h
      exact Post.skip fun _ => Post.skip fun _ => kind_mkLT.mono fun r hr => kindIn_of hr (by cases ta <;> decide)
    · refine Post.bind (P := fun x => x.kind = some (if tb then .ut else .lt) ∧ TriRk x) (fun x hx => ⟨kind_trM hb _ hx, triRk_trM rb _ hx⟩) fun x hx =>
        (hB.am (k := .diag) _ _ ra hx.2 rfl hx.1).mono fun r hr => hr.mono ?_
      clear ha hb ra rb hx hr; revert h; cases ta <;> cases tb <;> decide
  · split_ifs with h
    · obtain ⟨rfl, rfl⟩ := h
      exact Post.skip fun _ => kind_mkUT.mono fun r hr => kindIn_of hr (by decide)
    · refine Post.bind (P := fun x => x.kind = some (if ta then .lt else .ut) ∧ TriRk x) (fun x hx => ⟨kind_trM ha _ hx, triRk_trM ra _ hx⟩) fun x hx =>
        Post.bind (P := fun x => x.kind = some (if tb then .lt else .ut) ∧ TriRk x) (fun x hx => ⟨kind_trM hb _ hx, triRk_trM rb _ hx⟩) fun y hy =>
        (hB.am _ _ hx.2 hy.2 hx.1 hy.1).mono fun r hr => hr.mono ?_
      clear ha hb ra rb hx hy hr; revert h; cases ta <;> cases tb <;> decide
  · split_ifs with h
    · subst h
      exact Post.skip fun _ => Post.skip fun _ => kind_mkUT.mono fun r hr => kindIn_of hr (by cases tb <;> decide)
    · refine Post.bind (P := fun x => x.kind = some (if ta then .lt else .ut) ∧ TriRk x) (fun x hx => ⟨kind_trM ha _ hx, triRk_trM ra _ hx⟩) fun x hx =>
        (hB.am (k' := .diag) _ _ hx.2 rb hx.1 rfl).mono fun r hr => hr.mono ?_
      clear ha hb ra rb hx hr; revert h; cases ta <;> cases tb <;> decide
  · split_ifs with h
    · subst h
      exact Post.skip fun _ => Post.skip fun _ => kind_mkUT.mono fun r hr => kindIn_of hr (by cases ta <;> decide)
    · refine Post.bind (P := fun x => x.kind = some (if tb then .lt else .ut) ∧ TriRk x) (fun x hx => ⟨kind_trM hb _ hx, triRk_trM rb _ hx⟩) fun x hx =>
        (hB.am (k := .diag) _ _ ra hx.2 rfl hx.1).mono fun r hr => hr.mono ?_
      clear ha hb ra rb hx hr; revert h; cases ta <;> cases tb <;> decide
  · -- lrLr
    have hin : Kind.lr ∈ mmOut ta tb k k' := lrLr_out e (by simp)
    unfold matmulLRLR
    refine Post.skip fun _ => Post.skip fun _ => Post.skip fun _ => ?_
    split
    · refine Post.skip fun _ => Post.skip fun _ => Post.skip fun _ => Post.ite ?_ (kind_mkLR.mono fun r hr => kindIn_of hr hin)
      exact Post.skip fun _ => Post.skip fun _ => kind_mkLR.mono fun r hr => kindIn_of hr hin
    · exact Post.error
  · have hin : Kind.lr ∈ mmOut ta tb k k' := lrLr_out e (by simp)
    refine Post.skip fun _ => Post.skip fun _ => ?_
    split
    · exact Post.skip fun _ => Post.skip fun _ => kind_mkLR.mono fun r hr => kindIn_of hr hin
    · exact Post.error
  · have hin : Kind.lr ∈ mmOut ta tb k k' := lrLr_out e (by simp)
    refine Post.skip fun _ => Post.skip fun _ => ?_
    split
    · exact Post.skip fun _ => Post.skip fun _ => kind_mkLR.mono fun r hr => kindIn_of hr hin
    · exact Post.error
  · obtain rfl : .const = k' := by simpa [Mat.kind] using hb
    refine Post.bind (P := fun x : Mat K => x.kind = some .lr ∧ TriRk x) (fun x hx => ?_) fun x hx => (hB.am _ _ ra hx.2 ha hx.1).mono fun r hr => hr.mono ?_
    · obtain ⟨_, _, _, _, rfl⟩ := post_constToLR _ _ _ _ hx
      exact ⟨rfl, trivial⟩
    · clear ha hb ra rb hr; revert e; cases k <;> cases ta <;> cases tb <;> decide
  · obtain rfl : .const = k := by simpa [Mat.kind] using ha
    refine Post.bind (P := fun x : Mat K => x.kind = some .lr ∧ TriRk x) (fun x hx => ?_) fun x hx => (hB.am _ _ hx.2 rb hx.1 hb).mono fun r hr => hr.mono ?_
    · obtain ⟨_, _, _, _, rfl⟩ := post_constToLR _ _ _ _ hx
      exact ⟨rfl, trivial⟩
    · clear ha hb ra rb hr; revert e; cases k' <;> cases ta <;> cases tb <;> decide
  · -- wbAm
    obtain rfl : .wb = k := by simpa [Mat.kind] using ha
    rename_i d l r' m'
    refine (hB.am (a := .diag d) (k := .diag) ta tb trivial rb rfl hb).bind fun x hx => (hB.am (a := .lr l r' m') (k := .lr) ta tb trivial rb rfl hb).bind fun y hy => ?_
    obtain ⟨k1, h1, hx⟩ := hx
    obtain ⟨k2, h2, hy⟩ := hy
    refine (hA.am hx hy).mono fun r hr => hr.mono (wbmm_left ta tb k' e k1 h1 k2 h2)
  · obtain rfl : .wb = k' := by simpa [Mat.kind] using hb
    rename_i d l r' m'
    refine (hB.am (b := .diag d) (k' := .diag) ta tb ra trivial ha rfl).bind fun x hx => (hB.am (b := .lr l r' m') (k' := .lr) ta tb ra trivial ha rfl).bind fun y hy => ?_
    obtain ⟨k1, h1, hx⟩ := hx
    obtain ⟨k2, h2, hy⟩ := hy
    refine (hA.am hx hy).mono fun r hr => hr.mono (wbmm_right ta tb k e k1 h1 k2 h2)
  · exact Post.skip fun _ => Post.skip fun _ => Post.skip fun _ => Post.skip fun _ => Post.pure (kindIn_of (k := .kron) rfl (by cases ta <;> cases tb <;> decide))
  · obtain rfl : .kron = k := by simpa [Mat.kind] using ha
    have hin : Kind.dense ∈ mmOut ta tb .kron k' := by clear ha hb ra rb; revert e; cases k' <;> cases ta <;> cases tb <;> decide
    unfold matmulKronAm
    iterate 7 refine Post.skip fun _ => ?_
    exact Post.ite (Post.skip fun _ => Post.skip fun _ => Post.pure (kindIn_of (k := .dense) rfl hin)) (Post.skip fun _ => Post.skip fun _ => Post.pure (kindIn_of (k := .dense) rfl hin))
  · -- amKron
    refine (hB.am _ _ rb ra hb ha).bind fun x hx => ?_
    obtain ⟨k1, h1, hx⟩ := hx
    intro r hr
    have hr' := kind_trM (t := true) hx r (by simpa [trM] using hr)
    refine kindIn_of hr' ?_
    exact amKron_out ta tb k k' e k1 h1
  · obtain rfl : .diag = k' := by simpa [Mat.kind] using hb
    obtain rfl : k = .kron := (mmId_kron e).1 rfl
    cases a <;> simp only [Mat.kind, Option.some.injEq, reduceCtorEq] at ha
    exact (hk _ _).bind fun t ht => (hB.numL _ _ ht rb hb).mono fun r hr => hr.mono (by cases ta <;> cases tb <;> decide)
  · obtain rfl : .diag = k := by simpa [Mat.kind] using ha
    obtain rfl : k' = .kron := (mmId_kron e).2 rfl
    cases b <;> simp only [Mat.kind, Option.some.injEq, reduceCtorEq] at hb
    exact (hk _ _).bind fun t ht => (hB.numR _ _ ht ra ha).mono fun r hr => hr.mono (by cases ta <;> cases tb <;> decide)
  · exact Post.error

theorem triRk_convert {env : Env K} {a : Mat K} (h : TriRk a) : TriRk (convertAM env a) := by
  cases a with
  | num t => simp only [convertAM]; split_ifs <;> trivial
  | _ => exact h

theorem ops_mmKinds (env : Env K) (n : ℕ) : MmKinds env (ops env n) := by
  induction n with
  | zero => exact fun _ _ _ _ _ _ _ => Post.error
  | succ n ih =>
    intro ta tb a b hab ra rb
    show Post _ (stepMatmul env (ops env n) ta tb a b)
    unfold stepMatmul
    split
    · simp [Mat.isAM] at hab
    · simp only [kind_convertAM]
      split
      · rename_i e
        exact mmRun_kinds (ops_addKinds env n) (ops_mulKinds env n) ih (ops_kronRk env n) ta tb (triRk_convert ra) (triRk_convert rb) (kind_convertAM env _) (kind_convertAM env _) e
      · exact Post.error

/-! ### C09 -/

/-- The class an operand acts as: a structured matrix its own, a numeric matrix Dense, the number 0 Zero and another scalar Constant. -/
def classOf (c : Cfg K) (a : Mat K) : Kind :=
  match a with
  | .num t => if t.rank = 0 then if c.isNumber t = true ∧ t.get (fun _ => 0) = 0 then .zero else .const else .dense
  | a => a.kind.getD .dense

theorem classOf_eq (c : Cfg K) (a : Mat K) : kindC c.code a = classOf c a := by
  cases a with
  | num t =>
    show ((if t.rank = 0 then if c.isNumber t = true ∧ t.get (fun _ => 0) = 0 then Mat.zero [] 1 1 else Mat.const t 1 1 else mkDense t).kind).getD .dense = _
    simp only [classOf]
    split_ifs <;> rfl
  | _ => rfl

/-- C09.  The class of a sum depends on the classes of the operands as in the table `addOut`. -/
theorem C09_add (c : Cfg K) {a b r : Mat K} (hab : a.isAM = true ∨ b.isAM = true) (h : Returns c (fun B => B.add a b) r) :
    ∃ k ∈ addOut (classOf c a) (classOf c b), r.kind = some k := by
  obtain ⟨n, h⟩ := h
  rw [← classOf_eq, ← classOf_eq]
  exact ops_addKinds c.code n a b hab r h

/-- C09.  The class of an element-wise product is determined by the classes of the operands (table `mulOut`). -/
theorem C09_multiply (c : Cfg K) {a b r : Mat K} (hab : a.isAM = true ∨ b.isAM = true) (h : Returns c (fun B => B.mul a b) r) :
    r.kind = some (mulOut (classOf c a) (classOf c b)) := by
  obtain ⟨n, h⟩ := h
  rw [← classOf_eq, ← classOf_eq]
  exact ops_mulKinds c.code n a b hab r h

theorem triRk_of_valid {a : Mat K} (h : a.Valid) : TriRk a := by
  obtain ⟨S, h⟩ := h
  cases a with
  | lt t => exact fun h0 => absurd h.1 (by rw [h0]; decide)
  | ut t => exact fun h0 => absurd h.1 (by rw [h0]; decide)
  | _ => trivial

/-- C09.  The class of a matrix product depends on the classes of the operands and the transpose flags as in the table `mmOut`. -/
theorem C09_matmul (c : Cfg K) {ta tb : Bool} {a b r : Mat K} (ha : a.Valid) (hb : b.Valid) (hab : a.isAM = true ∨ b.isAM = true)
    (h : Returns c (fun B => B.matmul ta tb a b) r) : ∃ k ∈ mmOut ta tb (classOf c a) (classOf c b), r.kind = some k := by
  obtain ⟨n, h⟩ := h
  rw [← classOf_eq, ← classOf_eq]
  exact ops_mmKinds c.code n ta tb a b hab (triRk_of_valid ha) (triRk_of_valid hb) r h

theorem broadcastTo_self {B : Ops K} {S : Shp} {a : Mat K} (ha : a.WF S) : broadcastTo B a (den a).sh = .ok a := by
  simp [broadcastTo, ha.shape]

/-- C09.  Adding a Zero matrix that is not larger returns the other operand itself, of any class. -/
theorem C09_add_zero (c : Cfg K) {a r : Mat K} {bt : Shp} {n m : ℕ} (ha : a.Valid) (hk : a.isAM = true) (hf : Fits (den a).sh (m :: n :: bt)) (hl : bt.length + 2 ≤ (den a).rank)
    (h : Returns c (fun B => B.add a (.zero bt n m)) r) : r = a := by
  obtain ⟨i, h⟩ := h
  have ha' := ha.own
  cases i with
  | zero => simp [ops, Ops.bot] at h
  | succ i =>
    change stepAdd c.code (ops c.code i) a (.zero bt n m) = .ok r at h
    have hz : (Mat.zero bt n m : Mat K).Valid := ⟨bt, Fits.refl _⟩
    have e : stepAdd c.code (ops c.code i) a (.zero bt n m) = addRun c.code (ops c.code i) .amZero a (.zero bt n m) := by
      cases a <;> simp_all [Mat.isAM, stepAdd, convertAM, Mat.kind, addId]
    rw [e] at h
    have hs : shape (Mat.zero bt n m : Mat K) = .ok (m :: n :: bt) := rfl
    simp only [addRun, ha'.shape, hs, shapeBroadcast, bind_ok_iff, Except.ok.injEq, exists_eq_left', assertCompatible_ok, exists_const, bsE_ok] at h
    obtain ⟨_, _, ⟨_, rfl⟩, h⟩ := h
    rw [bsh_of_fits hf (by simp only [List.length_cons, Tensor.rank] at *; omega), broadcastTo_self ha'] at h
    exact (Except.ok.inj h).symm

/-- C09.  The same with the Zero matrix on the left. -/
theorem C09_zero_add (c : Cfg K) {b r : Mat K} {bt : Shp} {n m : ℕ} (hb : b.Valid) (hk : b.isAM = true) (hk' : b.kind ≠ some .zero) (hf : Fits (den b).sh (m :: n :: bt)) (hl : bt.length + 2 ≤ (den b).rank)
    (h : Returns c (fun B => B.add (.zero bt n m) b) r) : r = b := by
  obtain ⟨i, h⟩ := h
  have hb' := hb.own
  cases i with
  | zero => simp [ops, Ops.bot] at h
  | succ i =>
    change stepAdd c.code (ops c.code i) (.zero bt n m) b = .ok r at h
    have e : stepAdd c.code (ops c.code i) (.zero bt n m) b = addRun c.code (ops c.code i) .zeroAm (.zero bt n m) b := by
      cases b <;> simp_all [Mat.isAM, stepAdd, convertAM, Mat.kind, addId]
    rw [e] at h
    have hs : shape (Mat.zero bt n m : Mat K) = .ok (m :: n :: bt) := rfl
    simp only [addRun, hb'.shape, hs, shapeBroadcast, bind_ok_iff, Except.ok.injEq, exists_eq_left', assertCompatible_ok, exists_const, bsE_ok] at h
    obtain ⟨_, _, ⟨_, rfl⟩, h⟩ := h
    rw [bsh_comm, bsh_of_fits hf (by simp only [List.length_cons, Tensor.rank] at *; omega), broadcastTo_self hb'] at h
    exact (Except.ok.inj h).symm

/-! The table on concrete operands: a Woodbury sum, products that stay Kronecker and triangular, and a sum of LowRank matrices collapsing to Zero. -/

example : ∃ r, Returns Ex.cfg (fun B => B.add Ex.D Ex.R) r ∧ r.kind = some .wb := Ex.kindIs (n := 4) (by decide +kernel)
example : ∃ r, Returns Ex.cfg (fun B => B.add Ex.W Ex.W) r ∧ r.kind = some .wb := Ex.kindIs (n := 8) (by decide +kernel)
example : ∃ r, Returns Ex.cfg (fun B => B.add Ex.R (.lr (.num (Ex.m 2 1 [1, 2])) (.num (Ex.m 2 1 [3, 4])) (.num (Ex.m 1 1 [-2])))) r ∧ r.kind = some .zero :=
  Ex.kindIs (n := 8) (by decide +kernel)
example : ∃ r, Returns Ex.cfg (fun B => B.mul Ex.W Ex.L) r ∧ r.kind = some .lt := Ex.kindIs (n := 8) (by decide +kernel)
example : ∃ r, Returns Ex.cfg (fun B => B.matmul true true Ex.L Ex.L) r ∧ r.kind = some .ut := Ex.kindIs (n := 8) (by decide +kernel)
example : ∃ r, Returns Ex.cfg (fun B => B.matmul true false Ex.Kr Ex.Kr) r ∧ r.kind = some .kron := Ex.kindIs (n := 8) (by decide +kernel)
example : Ex.Kr.Valid ∧ Ex.Kr.isAM = true ∧ Fits (den Ex.Kr).sh [1, 4] ∧ ∃ r, Returns Ex.cfg (fun B => B.add Ex.Kr (.zero [] 4 1)) r :=
  ⟨⟨[], Ex.Kr_wf _⟩, rfl, by decide, (Ex.meets (Calls.add _ _) (n := 6) (by decide +kernel)).imp fun _ h => h.1⟩

end Verif
