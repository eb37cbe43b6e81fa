/-
C33.  Sums of LowRank matrices made of arrays: when the tolerance tests of `align` cannot be wrong, the sum is right in every batch element.
-/
import Verif.Findings

set_option linter.unusedSectionVars false

namespace Verif

variable {K : Type} [Field K] [LinearOrder K]

/-! ### Specification -/

/-- Column `i` of `a` and column `j` of `b` are within the tolerance in the first batch element: the mean squared difference is below `tol`. -/
def ColsClose (tol : K) (a b : Tensor K) (i j : ℕ) : Prop :=
  a.rows ≠ 0 ∧ (∑ x ∈ Finset.range a.rows, (a.at' (fun _ => 0) x i - b.at' (fun _ => 0) x j) * (a.at' (fun _ => 0) x i - b.at' (fun _ => 0) x j)) / (a.rows : K) < tol

/-- Column `i` of `a` equals column `j` of `b` in every batch element. -/
def ColsEqual (a b : Tensor K) (i j : ℕ) : Prop :=
  ∀ β x, InRange (bsh a.bt b.bt) β → x < a.rows → a.at' β x i = b.at' β x j

/-- Columns within the tolerance in the first batch element are equal in every batch element. -/
def Separated (tol : K) (a b : Tensor K) : Prop := ∀ i < a.cols, ∀ j < b.cols, ColsClose tol a b i j → ColsEqual a b i j

/-! ### The run is exact -/

/-- The functions `B.*` do on arrays what the backend does. -/
structure NumOps (B : Ops K) : Prop where
  dense : ∀ t, B.dense (.num t) = .ok t
  add : ∀ s t, B.add (.num s) (.num t) = (nAdd s t >>= fun u => .ok (.num u))

theorem numOps (env : Env K) (n : ℕ) : NumOps (ops env (n+1)) := ⟨fun _ => rfl, fun _ _ => rfl⟩

theorem alignLoop_congr {f g : ℕ → ℕ → E Bool} {na nb : ℕ → K} : ∀ {as bs : List ℕ}, (∀ i ∈ as, ∀ j ∈ bs, f i j = g i j) → alignLoop f na nb as bs = alignLoop g na nb as bs
  | i :: as, j :: bs, h => by
    have h1 : alignLoop f na nb as bs = alignLoop g na nb as bs := alignLoop_congr fun x hx y hy => h x (List.mem_cons_of_mem _ hx) y (List.mem_cons_of_mem _ hy)
    have h2 : alignLoop f na nb as (j :: bs) = alignLoop g na nb as (j :: bs) := alignLoop_congr fun x hx y hy => h x (List.mem_cons_of_mem _ hx) y hy
    have h3 : alignLoop f na nb (i :: as) bs = alignLoop g na nb (i :: as) bs := alignLoop_congr fun x hx y hy => h x hx y (List.mem_cons_of_mem _ hy)
    have h4 : f i j = g i j := h i List.mem_cons_self j List.mem_cons_self
    rw [alignLoop, alignLoop, h1, h2, h3, h4]
  | [], _, _ => by rw [alignLoop, alignLoop]
  | _ :: _, [], _ => by rw [alignLoop, alignLoop] <;> simp
termination_by as bs => as.length + bs.length

theorem mem_argsort {l : List K} {i : ℕ} (h : i ∈ codeArgsort l) : i < l.length := by
  have := (List.perm_insertionSort (fun i j => l.getD i 0 ≤ l.getD j 0) (List.range l.length)).mem_iff.1 h
  simpa using this

theorem colsAgree_of {a b : Tensor K} {i j : ℕ} (hr : a.rows = b.rows) (h : ColsEqual a b i j) : colsAgree a b i j = true := by
  simp only [colsAgree, decide_eq_true_eq]
  exact ⟨hr, fun n hn x hx => h _ _ (inRange_unlin hn) hx⟩

theorem colEq_strict {c : Cfg K} {a b : Tensor K} (hr : a.rows = b.rows) (hs : Separated c.tol a b) {i j : ℕ} (hi : i < a.cols) (hj : j < b.cols) :
    c.strict.colEq a b i j = c.code.colEq a b i j := by
  simp only [Cfg.strict, Cfg.code, strictEnv, codeEnv]
  cases e : codeColEq c.tol a b i j with
  | error x => rfl
  | ok q =>
    simp only [bind, Except.bind]
    cases q with
    | false => rfl
    | true =>
      rw [if_neg]
      simp only [Bool.true_and, Bool.not_eq_true', Bool.not_eq_false]
      apply colsAgree_of hr (hs i hi j hj ?_)
      unfold codeColEq at e
      split_ifs at e
      simp only [Except.ok.injEq, decide_eq_true_eq, ← hr, bd_self] at e
      exact e

theorem align_strict {c : Cfg K} {a b : Tensor K} (hr : a.rows = b.rows) (hs : Separated c.tol a b) : align c.strict a b = align c.code a b := by
  unfold align
  have : alignLoop (c.strict.colEq a b) (fun i => (colNorms a).getD i 0) (fun j => (colNorms b).getD j 0) (c.strict.argsort (colNorms a)) (c.strict.argsort (colNorms b)) =
      alignLoop (c.code.colEq a b) (fun i => (colNorms a).getD i 0) (fun j => (colNorms b).getD j 0) (c.code.argsort (colNorms a)) (c.code.argsort (colNorms b)) := by
    apply alignLoop_congr
    intro i hi j hj
    have hi' := mem_argsort hi
    have hj' := mem_argsort hj
    simp only [colNorms, List.length_map, List.length_range] at hi' hj'
    exact colEq_strict hr hs hi' hj'
  simp only [this]

theorem ok_bind' {α β : Type} (a : α) (f : α → E β) : ((.ok a : E α) >>= f) = f a := rfl

theorem bind_mono {α β : Type} {x : E α} {f g : α → E β} {r : β} (h : ∀ a, f a = .ok r → g a = .ok r) (hf : (x >>= f) = .ok r) : (x >>= g) = .ok r := by
  rw [bind_ok_iff] at hf ⊢
  obtain ⟨a, ha, hf⟩ := hf
  exact ⟨a, ha, h a hf⟩

theorem takeGen_num {B : Ops K} (h : NumOps B) (t : Tensor K) (idx : List Int) (k : Int) : takeGen B (.num t) idx k = (nTake t idx k >>= fun u => .ok (.num u)) := by
  simp only [takeGen, h.dense, wrapLike, Mat.isAM]; rfl
theorem padZeroCol_num {B : Ops K} (h : NumOps B) (t : Tensor K) : padZeroCol B (.num t) = (shape (.num t) >>= fun s => nConcat (-1) [t, fillT (1 :: dim s 1 :: s.drop 2) 0] >>= fun u => .ok (.num u)) := by
  simp only [padZeroCol, h.dense, wrapLike, Mat.isAM]; rfl
theorem padZeroRow_num {B : Ops K} (h : NumOps B) (t : Tensor K) : padZeroRow B (.num t) = (shape (.num t) >>= fun s => nConcat (-2) [t, fillT (dim s 0 :: 1 :: s.drop 2) 0] >>= fun u => .ok (.num u)) := by
  simp only [padZeroRow, h.dense, wrapLike, Mat.isAM]; rfl

theorem addLRLR_strict {c : Cfg K} {B C : Ops K} (hB : NumOps B) (hC : NumOps C) {al ar am bl br bm : Tensor K} {r : Mat K} (h1 : al.rows = bl.rows) (h2 : ar.rows = br.rows)
    (hl : Separated c.tol al bl) (hr : Separated c.tol ar br) (hk : r.kind = some .lr)
    (h : addLRLR c.code B (.num al) (.num ar) (.num am) (.num bl) (.num br) (.num bm) = .ok r) :
    addLRLR c.strict C (.num al) (.num ar) (.num am) (.num bl) (.num br) (.num bm) = .ok r := by
  simp only [addLRLR, hB.dense, hC.dense, takeGen_num hB, takeGen_num hC, padZeroCol_num hB, padZeroCol_num hC, padZeroRow_num hB, padZeroRow_num hC, bind_assoc, ok_bind', hB.add, hC.add,
    align_strict h1 hl, align_strict h2 hr] at h ⊢
  repeat (refine bind_mono ?_ h; clear h; intro _ h)
  rw [bind_ok_iff] at h ⊢
  obtain ⟨z, hz, h⟩ := h
  cases z with
  | true =>
    rw [if_pos rfl, bind_ok_iff] at h
    obtain ⟨s, _, h⟩ := h
    unfold mkZero at h
    split at h
    · cases h; cases hk
    · cases h
  | false =>
    refine ⟨false, ?_, h⟩
    simp only [Cfg.strict, Cfg.code, strictEnv, codeEnv] at hz ⊢
    rw [hz]; rfl

/-- C33.  The sum of two LowRank matrices made of arrays is right in every batch element, if columns that `align` cannot tell apart are equal
and the sum is not collapsed to a Zero matrix.  (`C33_batched_refuted`, `C33_tolerance_refuted`: not so without the first condition.) -/
theorem C33_lowrank_sum (c : Cfg K) {al ar am bl br bm : Tensor K} {r : Mat K} (ha : (Mat.lr (.num al) (.num ar) (.num am)).Valid)
    (hb : (Mat.lr (.num bl) (.num br) (.num bm)).Valid) (hc : BatchCompat (Mat.lr (.num al) (.num ar) (.num am)) (Mat.lr (.num bl) (.num br) (.num bm)))
    (h1 : al.rows = bl.rows) (h2 : ar.rows = br.rows) (hl : Separated c.tol al bl) (hr : Separated c.tol ar br)
    (h : Returns c (fun B => B.add (.lr (.num al) (.num ar) (.num am)) (.lr (.num bl) (.num br) (.num bm))) r) (hk : r.kind = some .lr) :
    r.Valid ∧ IsEltwise (· + ·) (den (.lr (.num al) (.num ar) (.num am))) (den (.lr (.num bl) (.num br) (.num bm))) (den r) := by
  have hx : Exact c fun B => B.add (.lr (.num al) (.num ar) (.num am)) (.lr (.num bl) (.num br) (.num bm)) := by
    obtain ⟨n, h⟩ := h
    match n, h with
    | 0, h => cases h
    | 1, h =>
      change addLRLR c.code (ops c.code 0) _ _ _ _ _ _ = _ at h
      simp only [addLRLR, bind_ok_iff] at h
      obtain ⟨_, _, _, _, _, _, _, h, _⟩ := h
      cases h
    | n+2, h =>
      exact Exact.of_ok (Calls.add _ _) (n := n+2) (r := r) (addLRLR_strict (numOps _ n) (numOps _ n) h1 h2 hl hr hk h)
  exact C01_add c ha hb hc (noStretch_of_eq h1 h2) h hx

/-- Two batched LowRank matrices sharing a column: the hypotheses are met. -/
example : Separated Ex.cfg.tol (Ex.bm 2 2 1 [1, 2, 3, 4]) (Ex.bm 2 2 1 [1, 2, 3, 4]) ∧ Separated Ex.cfg.tol (Ex.bm 2 2 1 [1, 2, 1, 2]) (Ex.bm 2 2 1 [3, 4, 5, 6]) ∧
    ∃ r, Returns Ex.cfg (fun B => B.add (.lr (.num (Ex.bm 2 2 1 [1, 2, 3, 4])) (.num (Ex.bm 2 2 1 [1, 2, 1, 2])) (.num (Ex.bm 2 1 1 [1, 1])))
      (.lr (.num (Ex.bm 2 2 1 [1, 2, 3, 4])) (.num (Ex.bm 2 2 1 [3, 4, 5, 6])) (.num (Ex.bm 2 1 1 [1, 1])))) r ∧ r.kind = some .lr := by
  refine ⟨?_, ?_, Ex.kindIs (n := 4) (by decide +kernel)⟩
  · intro i hi j hj _ β x _ _
    obtain rfl : i = 0 := Nat.lt_one_iff.1 hi
    obtain rfl : j = 0 := Nat.lt_one_iff.1 hj
    rfl
  · intro i hi j hj h
    obtain rfl : i = 0 := Nat.lt_one_iff.1 hi
    obtain rfl : j = 0 := Nat.lt_one_iff.1 hj
    exact absurd h.2 (by decide +kernel)

end Verif
