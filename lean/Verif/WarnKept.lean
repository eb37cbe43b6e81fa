/-
C54, the other direction: where the derived functions keep the structure, they do not warn.
-/
import Verif.WarnDer

set_option linter.unusedSectionVars false

namespace Verif

variable {K : Type} [Field K] [LinearOrder K] [IsStrictOrderedRing K]

/-- The function with warnings is the function itself, whatever the recursion depth: then it returns without a warning. -/
theorem quiet_of_eq {α : Type} {c : Cfg K} {fw f : Ops K → E α} {r : α} (he : ∀ n, fw (wops c.code n) = f (ops c.code n)) (h : Returns c f r) : Quiet c fw r := by
  obtain ⟨n, h⟩ := h
  exact ⟨n, (he n).trans h⟩

/-- C54.  Submatrices of Zero, Diagonal, Constant and triangular matrices come without a warning. -/
theorem C54_submatrix_kept (c : Cfg K) {a r : Mat K} (ha : a.kind = some .zero ∨ a.kind = some .diag ∨ a.kind = some .const ∨ a.kind = some .lt ∨ a.kind = some .ut) {sel : Sel} {m : ℕ}
    (h : Returns c (fun B => submatrixM B m a sel) r) : Quiet c (fun B => wSubmatrixM B m a sel) r := by
  cases a <;> simp [Mat.kind] at ha <;> exact quiet_of_eq (fun _ => rfl) h

/-- Kronecker products, nested in any way, of arrays and of Zero, Diagonal, Constant and triangular matrices. -/
def Mat.keepsElt : Mat K → Prop
  | .kron l r => l.keepsElt ∧ r.keepsElt
  | .num _ | .zero .. | .diag _ | .const .. | .lt _ | .ut _ => True
  | _ => False

/-- C54.  Element-wise functions of Kronecker products of such factors do not warn (compare `C54_kron_needless`, where the factors are LowRank). -/
theorem C54_elementwise_kept (c : Cfg K) {a r : Mat K} (ha : a.keepsElt) (g : Tensor K → E (Tensor K)) (h : Returns c (fun B => eltM g B a) r) : Quiet c (fun B => wElt g B a) r := by
  refine quiet_of_eq (fun n => ?_) h
  clear h
  induction a with
  | kron l r' ihl ihr => simp only [wElt, eltM, ihl ha.1, ihr ha.2]
  | dense t => exact ha.elim
  | lr l r' m _ _ _ => exact ha.elim
  | wb d l r' m _ _ _ => exact ha.elim
  | tiled n blk reps axis _ => exact ha.elim
  | _ => rfl

/-- C54.  Tiling a Zero or Constant matrix does not warn. -/
theorem C54_tile_kept (c : Cfg K) {a r : Mat K} {reps : List ℕ} (ha : a.kind = some .zero ∨ a.kind = some .const) (h : Returns c (fun B => tileM B a reps) r) :
    Quiet c (fun B => wTile B a reps) r := by
  cases a <;> simp [Mat.kind] at ha <;> exact quiet_of_eq (fun _ => rfl) h

/-- C54.  Concatenation does not warn if the result is not Dense, or if nothing structured is concatenated. -/
theorem C54_concat_kept (c : Cfg K) {as : List (Mat K)} {axis : Int} {r : Mat K} (hk : r.kind ≠ some .dense ∨ ∀ a ∈ as, a.structured = false)
    (h : Returns c (fun B => concatM B as axis) r) : Quiet c (fun B => wConcat B as axis) r := by
  obtain ⟨n, h⟩ := h
  refine ⟨n, ?_⟩
  simp only [concatM] at h
  simp only [wConcat]
  split_ifs at h ⊢
  · exact h
  · rename_i h1 h2
    have ham : ∀ a ∈ as, a.isAM = true := by simpa using h2
    cases e : as.mapM (tiledParts axis) with
    | some bs => rw [e] at h; exact h
    | none =>
      rw [e] at h
      rcases hk with hk | hk
      · simp only [bind_ok_iff, pure_eq_ok] at h
        obtain ⟨_, _, _, _, rfl⟩ := h
        exact absurd rfl hk
      · have hw : as.any Mat.structured = false := by simpa using hk
        have hd : ∀ l : List (Mat K), (∀ a ∈ l, a ∈ as) → l.mapM (wops c.code n).dense = l.mapM (ops c.code n).dense := by
          intro l hl
          induction l with
          | nil => rfl
          | cons a l ih =>
            have ka : a.kind = some .dense := by
              have h1 := ham a (hl a (by simp)); have h2 := hk a (hl a (by simp))
              cases a <;> simp [Mat.structured, Mat.isAM, Mat.kind] at h1 h2 ⊢
            rw [List.mapM_cons, List.mapM_cons, dense_eq n ka (by decide), ih fun b hb => hl b (List.mem_cons_of_mem _ hb)]
        simp only [hw]
        rw [hd as fun _ h => h]
        exact h

/-- C54.  Taking rows or columns of a Zero or Constant matrix, or batch elements of one that is Diagonal or triangular, does not warn. -/
theorem C54_take_kept (c : Cfg K) {a r : Mat K} {sel : Sel} {axis : Int} {k m : ℕ} (va : a.Valid) (hk : AxisAt (den a).rank axis k)
    (ha : a.kind = some .zero ∨ a.kind = some .const ∨ 2 ≤ k ∧ (a.kind = some .diag ∨ a.kind = some .lt ∨ a.kind = some .ut))
    (h : Returns c (fun B => takeM B m a sel axis) r) : Quiet c (fun B => wTakeM B m a sel axis) r := by
  cases m with
  | zero => obtain ⟨n, h⟩ := h; cases h
  | succ m =>
    refine quiet_of_eq (fun n => ?_) h
    have hr : rankM a = .ok (den a).rank := by obtain ⟨S, ha⟩ := va; simp [rankM, ha.shape, Tensor.rank]
    have hp : axPos (den a).rank axis = .ok k := axPos_iff.2 hk
    show wTakeStep _ _ a sel axis = takeStep _ _ a sel axis
    simp only [wTakeStep, takeStep, hr, hp, bind, Except.bind]
    cases a <;> simp [Mat.kind] at ha <;> first | rfl | (have : ¬ k < 2 := by omega); simp only [this]; rfl

/-- C54.  Sums over a batch axis of Zero, Dense, Diagonal, Constant and triangular matrices do not warn. -/
theorem C54_sum_kept (c : Cfg K) {a r : Mat K} {axis : Int} {k : ℕ} (va : a.Valid) (hk : AxisAt (den a).rank axis k) (h2 : 2 ≤ k)
    (ha : ∃ q : Kind, a.kind = some q ∧ q.single) (h : Returns c (fun B => sumFull B a (some axis)) r) : Quiet c (fun B => wSum B a (some axis)) r := by
  refine quiet_of_eq (fun n => ?_) h
  obtain ⟨q, hq, hs⟩ := ha
  have hr : rankM a = .ok (den a).rank := by obtain ⟨S, ha⟩ := va; simp [rankM, ha.shape, Tensor.rank]
  have hp : axPos (den a).rank axis = .ok k := axPos_iff.2 hk
  have : ¬ k < 2 := by omega
  simp only [wSum, sumFull, hr, hp, bind, Except.bind, this, if_false]
  cases a <;> simp only [Mat.kind, Option.some.injEq, reduceCtorEq] at hq <;> subst hq <;> first | rfl | exact hs.elim

/-- C54.  Dividing a Dense matrix by a Dense matrix does not warn. -/
theorem C54_divide_kept (c : Cfg K) {a b r : Mat K} (ha : a.kind = some .dense) (hb : b.kind = some .dense) (h : Returns c (fun B => divideM c.code B a b) r) :
    Quiet c (fun B => wDivide c.code B a b) r := by
  refine quiet_of_eq (fun n => ?_) h
  have e1 := dense_eq (env := c.code) n ha (by decide)
  have e2 := dense_eq (env := c.code) n hb (by decide)
  cases a <;> simp [Mat.kind] at ha
  cases b <;> simp [Mat.kind] at hb
  simp only [wDivide, divideM, convertAM, e1, e2]
  rfl

theorem mem_diagBlocks {α : Type} {r : ℕ} {rows : List (List α)} {a : α} (h : a ∈ diagBlocks r rows) : ∃ row ∈ rows, a ∈ row := by
  induction rows generalizing r with
  | nil => simp [diagBlocks] at h
  | cons row rows ih =>
    simp only [diagBlocks, List.mem_append, Option.mem_toList] at h
    rcases h with h | h
    · exact ⟨row, by simp, List.mem_of_getElem? h⟩
    · obtain ⟨row', h1, h2⟩ := ih h
      exact ⟨row', by simp [h1], h2⟩

theorem mapM_diag_eq (c : Cfg K) (n : ℕ) {l : List (Mat K)} (h : ∀ a ∈ l, ∃ q : Kind, a.kind = some q ∧ q.single) : l.mapM (wops c.code n).diag = l.mapM (ops c.code n).diag := by
  induction l with
  | nil => rfl
  | cons a l ih =>
    obtain ⟨q, h1, h2⟩ := h a (by simp)
    rw [List.mapM_cons, List.mapM_cons, diag_eq n h1 h2, ih fun b hb => h b (by simp [hb])]

theorem kinds_broadcast {s : Shp} {l l' : List (Mat K)} {P : Option Kind → Prop} (hn : ¬ P none) (h : ∀ a ∈ l, P a.kind) (he : l.mapM (broadcastBatchTo s) = .ok l') : ∀ a ∈ l', P a.kind := by
  have := mapM_ok he
  clear he
  induction this with
  | nil => simp
  | @cons a b _ _ h1 _ ih =>
    intro x hx
    rcases List.mem_cons.1 hx with rfl | hx
    · have ha := h a (by simp)
      cases hk : a.kind with
      | none => rw [hk] at ha; exact absurd ha hn
      | some q => rw [kind_broadcastBatchTo hk _ h1, ← hk]; exact ha
    · exact ih (fun b hb => h b (by simp [hb])) x hx

/-- C54.  A block matrix of Diagonal and Zero blocks that is not Dense comes without a warning. -/
theorem C54_block_kept (c : Cfg K) {rows : List (List (Mat K))} {r : Mat K} (ha : ∀ row ∈ rows, ∀ a ∈ row, a.kind = some .diag ∨ a.kind = some .zero)
    (h : Returns c (fun B => blockM B rows) r) (hr : r.kind ≠ some .dense) : Quiet c (fun B => wBlock B rows) r := by
  obtain ⟨n, h⟩ := h
  refine ⟨n, ?_⟩
  simp only [blockM] at h
  split at h
  · exact h
  · exact h
  · rename_i x1 x2
    beta_reduce
    rw [wBlock.eq_3 _ _ x1 x2]
    split_ifs at h ⊢ with hz
    · exact h
    · simp only [bind_ok_iff] at h ⊢
      obtain ⟨rs, h1, o, h2, h⟩ := h
      refine ⟨rs, h1, o, ?_, ?_⟩
      · rw [← h2]
        have hk : ∀ row ∈ rs, ∀ a ∈ row, a.kind = some .diag ∨ a.kind = some .zero := by
          simp only [alignBatchRows, bind_ok_iff] at h1
          obtain ⟨s, hs, h1⟩ := h1
          have := mapM_ok h1
          clear h1 h2 h x1 x2 hz hs
          induction this with
          | nil => simp
          | cons e _ ih =>
            intro row hrow
            rcases List.mem_cons.1 hrow with rfl | hrow
            · exact kinds_broadcast (P := fun q => q = some .diag ∨ q = some .zero) (by simp) (ha _ (by simp)) e
            · exact ih (fun row hrow => ha row (by simp [hrow])) row hrow
        simp only [blockDiagonal]
        split_ifs
        · rfl
        · refine bind_congr fun ok => ?_
          split_ifs
          · rfl
          · refine bind_congr fun s => ?_
            cases e : (diagBlocks 0 rs).mapM (broadcastBatchTo s) with
            | error _ => rfl
            | ok bs =>
              have hb := kinds_broadcast (P := fun q => q = some .diag ∨ q = some .zero) (by simp) (fun a h => by
                obtain ⟨row, h1, h2⟩ := mem_diagBlocks h
                exact hk row h1 a h2) e
              show (do let vs ← bs.mapM (wops c.code n).diag; return some (← mkDiag (← nConcat (-1) vs))) = _
              rw [mapM_diag_eq c n fun a h => by rcases hb a h with h | h; exacts [⟨_, h, trivial⟩, ⟨_, h, trivial⟩]]
              rfl
      · cases o with
        | some x => exact h
        | none =>
          simp only [bind_ok_iff, pure_eq_ok] at h
          obtain ⟨_, _, _, _, _, _, rfl⟩ := h
          exact absurd rfl hr

/-- C54.  The same for `B.block_diag` of Zero matrices or of Diagonal matrices. -/
theorem C54_block_diag_kept (c : Cfg K) {as : List (Mat K)} {r : Mat K} (ha : (∀ a ∈ as, a.kind = some .zero) ∨ ∀ a ∈ as, a.kind = some .diag)
    (h : Returns c (fun B => blockDiagAM B as) r) : Quiet c (fun B => wBlockDiag B as) r := by
  obtain ⟨n, h⟩ := h
  refine ⟨n, ?_⟩
  simp only [blockDiagAM] at h
  split at h
  · exact h
  · rename_i x1
    beta_reduce
    rw [wBlockDiag.eq_2 _ _ x1]
    split_ifs at h ⊢ with h1 h2
    · exact h
    · simp only [bind_ok_iff] at h ⊢
      obtain ⟨bs, e, vs, h3, h⟩ := h
      refine ⟨bs, e, vs, ?_, h⟩
      rw [← h3]
      simp only [alignBatchL, bind_ok_iff] at e
      obtain ⟨s, _, e⟩ := e
      have hd : ∀ a ∈ as, a.kind = some .diag := fun a hm => by
        have := List.all_eq_true.1 h2 a hm
        cases a <;> simp [isDiagM] at this; rfl
      have hb := kinds_broadcast (P := fun q => q = some .diag) (by simp) hd e
      exact mapM_diag_eq c n fun a h => ⟨_, hb a h, trivial⟩
    · exfalso
      rcases ha with ha | ha
      · exact h1 (List.all_eq_true.2 fun a hm => by have := ha a hm; cases a <;> simp [Mat.kind] at this; rfl)
      · exact h2 (List.all_eq_true.2 fun a hm => by have := ha a hm; cases a <;> simp [Mat.kind] at this; rfl)

/-! The hypotheses on concrete operands. -/

example : (Mat.kron Ex.D (.kron Ex.L (.num (Ex.m 1 1 [2])))).keepsElt := by simp [Mat.keepsElt, Ex.D, Ex.L]
example : ∃ r, Quiet Ex.cfg (fun B => wBlock B [[Ex.D, Ex.Z], [Ex.Z, Ex.D]]) r ∧ r.kind = some .diag := by
  obtain ⟨r, h1, h2⟩ := Ex.kindIs (f := fun B => blockM B [[Ex.D, Ex.Z], [Ex.Z, Ex.D]]) (k := .diag) (n := 6) (by decide +kernel)
  refine ⟨r, C54_block_kept Ex.cfg ?_ h1 (by rw [h2]; decide), h2⟩
  intro row hr a ha
  simp only [List.mem_cons, List.not_mem_nil, or_false] at hr
  rcases hr with rfl | rfl <;> simp only [List.mem_cons, List.not_mem_nil, or_false] at ha <;> rcases ha with rfl | rfl <;> simp [Ex.D, Ex.Z, Mat.kind]

end Verif
