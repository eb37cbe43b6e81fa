/-
Caches (C30): where the two Schur complements agree, and a history after which `B.inv` is wrong.
-/
import Verif.Cache
import Verif.Findings

set_option linter.unusedSectionVars false

namespace Verif

variable {K : Type} [Field K] [LinearOrder K] [IsStrictOrderedRing K]

theorem convertAM_dense (env : Env K) (t : Tensor K) : convertAM env (.dense t) = .dense t := rfl

/-- A solution computed by triangular solving against a Dense matrix is Dense. -/
theorem solve_tri_dense {env : Env K} {lin : LinEnv K} {B : Ops K} {m : ℕ} {a : Mat K} (ha : ∃ s, a = .lt s ∨ a = .ut s) (t : Tensor K) :
    Post (fun r => ∃ t, r = .dense t) ((lops env lin B m).solve a (.dense t)) := by
  cases m with
  | zero => exact Post.error
  | succ m =>
    obtain ⟨s, rfl | rfl⟩ := ha
    · exact Post.skip fun _ => Post.skip fun _ => Post.skip fun _ => Post.skip fun _ => Post.pure ⟨_, rfl⟩
    · exact Post.skip fun _ => Post.skip fun _ => Post.skip fun _ => Post.skip fun _ => Post.pure ⟨_, rfl⟩

theorem pdInv_dense {env : Env K} {lin : LinEnv K} {n m : ℕ} {t : Tensor K} {x : Mat K} (h : (lops env lin (ops env n) m).pdInv (.dense t) = .ok x) : ∃ t', x = .dense t' := by
  cases m with
  | zero => cases h
  | succ m =>
    change stepPdInv env (ops env n) (lops env lin (ops env n) m) (.dense t) = .ok x at h
    simp only [stepPdInv, bind_ok_iff] at h
    obtain ⟨ch, h1, e, h2, id, h3, h4⟩ := h
    cases m with
    | zero => cases h1
    | succ m =>
      change stepChol lin (ops env n) (lops env lin (ops env n) m) (.dense t) = .ok ch at h1
      simp only [stepChol, bind_ok_iff, mkLT, pure_eq_ok] at h1
      obtain ⟨_, _, u, _, _, _, rfl⟩ := h1
      have hid : ∃ t, convertAM env (.num id) = .dense t := by
        refine IsND.convert env (.inl ⟨id, rfl, ?_⟩)
        cases n with
        | zero => cases h3
        | succ n =>
          simp only [eyeM, fillDiag, bind_ok_iff, mkDiag, pure_eq_ok] at h2
          obtain ⟨_, _, _, _, _, _, _, _, rfl⟩ := h2
          change stepDense (ops env n) (.diag _) = .ok id at h3
          simp only [stepDense, Except.ok.injEq] at h3
          subst h3
          simp [diagC, mkMat, ofFn, Tensor.rank]
      obtain ⟨t', ht'⟩ := hid
      change stepCholSolve env lin (lops env lin (ops env n) m) (.lt _) (.num id) = .ok x at h4
      simp only [stepCholSolve, ht', convertAM_lt, cholSolveTri, bind_ok_iff] at h4
      obtain ⟨y, hy, z, hz, hx⟩ := h4
      obtain ⟨t2, rfl⟩ := solve_tri_dense ⟨_, .inl rfl⟩ _ _ hy
      obtain ⟨s, hs⟩ : ∃ s, z = .ut s := by
        simp only [transposeM, mkUT, bind_ok_iff, pure_eq_ok] at hz
        obtain ⟨_, _, rfl⟩ := hz
        exact ⟨_, rfl⟩
      exact solve_tri_dense ⟨_, .inr hs⟩ _ _ hx

/-- C30: the Schur complements agree if the middle factor is a symmetric Dense matrix for which both inverses can be computed. -/
theorem C30_agree_dense (c : Cfg K) {lin : LinEnv K} (hl : lin.Lawful) {t : Tensor K} (ht : IsSymm t) {x y : Mat K}
    (hx : LReturns c lin (fun _ L => L.inv (.dense t)) x) (hy : LReturns c lin (fun _ L => L.pdInv (.dense t)) y)
    (ex : LExact c lin fun _ L => L.inv (.dense t)) (ey : LExact c lin fun _ L => L.pdInv (.dense t)) (d : Tensor K) (l r : Mat K) :
    SchurAgrees c lin d l r (.dense t) := by
  have hv : (Mat.dense t).Valid := ⟨t.bt, ht.1, Fits.refl _⟩
  obtain ⟨_, i1, k1⟩ := C19_inv c hl hv hx ex
  obtain ⟨_, i2⟩ := C20_pd_inv c hl hv ht hy ey
  obtain ⟨u, rfl⟩ : ∃ u, x = .dense u := by
    cases x <;> simp [Mat.kind] at k1
    exact ⟨_, rfl⟩
  obtain ⟨w, rfl⟩ : ∃ w, y = .dense w := by
    obtain ⟨m, n, h⟩ := hy
    exact pdInv_dense h
  have e : u = w := i1.unique i2
  subst e
  refine SchurAgrees.of_inv fun z => ⟨fun h => ?_, fun h => ?_⟩
  · rw [h.unique (LCalls.inv _) hx]; exact hy
  · rw [h.unique (LCalls.pdInv _) hy]; exact hx

namespace Ex

/-- A Woodbury matrix with a middle factor that is not symmetric, `1 + [[4, 1], [0, 4]]`. -/
def N2w : Mat ℚ := .wb (v [1, 1]) (.num (m 2 2 [1, 0, 0, 1])) (.num (m 2 2 [1, 0, 0, 1])) (.dense (m 2 2 [4, 1, 0, 4]))

/-- Caches after `B.pd_schur` of the Woodbury matrices for which it returns. -/
def pdS : Slots ℚ := ⟨fun _ => none, fun _ => none, fun a =>
  match a with
  | .wb d l r k => (pdSchurM (cops cfg.code .empty 8) (clops cfg.code lin .empty (cops cfg.code .empty 8) 8) d l r k).toOption
  | _ => none⟩

theorem pdS_reach : Reach cfg lin pdS := by
  refine .fill .new (fun _ => .inl rfl) (fun _ => .inl rfl) fun a => ?_
  cases a with
  | wb d l r k =>
    cases h : pdSchurM (cops cfg.code .empty 8) (clops cfg.code lin .empty (cops cfg.code .empty 8) 8) d l r k with
    | error e => left; show Except.toOption _ = none; rw [h]; rfl
    | ok x => exact .inr ⟨rfl, d, l, r, k, 8, 8, x, rfl, by show Except.toOption _ = some x; rw [h]; rfl, .inr h⟩
  | _ => exact .inl rfl

end Ex

/-- The condition on the Schur complement is needed: `B.schur` and `B.pd_schur` share one attribute. After `B.pd_schur(a)` (which `B.pd_inv(a)` and `B.logdet(a)` call),
`B.inv(a)` returns a matrix that is not the inverse, where without the earlier call it returns the inverse; the middle factor is not symmetric. -/
theorem C30_shared_schur_refuted : ∃ (a : Mat ℚ) (s : Slots ℚ) (x y : Mat ℚ), a.Valid ∧ Reach Ex.cfg Ex.lin s ∧
    LReturns Ex.cfg Ex.lin (fun _ L => L.inv a) x ∧ IsInverse (den a) (den x) ∧
    CReturns Ex.cfg Ex.lin s (fun _ L => L.inv a) y ∧ ¬ IsInverse (den a) (den y) := by
  obtain ⟨x, hx, ex⟩ := Ex.lmeets (f := fun _ L => L.inv Ex.N2w) (LCalls.inv _) (n := 8) (m := 8) (by decide +kernel)
  have hv : Ex.N2w.Valid := ⟨[], ⟨by decide, Fits.nil _⟩, ⟨Ex.num_wf _ _ _ _, Ex.num_wf _ _ _ _, ⟨by decide, Fits.nil _⟩⟩, ⟨le_refl _, le_refl _, le_refl _⟩, ⟨rfl, rfl⟩, rfl, rfl⟩
  let P : Mat ℚ → Bool := fun y => decide (∑ k ∈ Finset.range 2, (den Ex.N2w).at' Ex.o 0 k * (den y).at' Ex.o k 1 ≠ 0)
  obtain ⟨y, hy, hP⟩ : ∃ y, (clops Ex.cfg.code Ex.lin Ex.pdS (cops Ex.cfg.code Ex.pdS 8) 8).inv Ex.N2w = .ok y ∧ P y = true := by
    have h : (match (clops Ex.cfg.code Ex.lin Ex.pdS (cops Ex.cfg.code Ex.pdS 8) 8).inv Ex.N2w with | .ok y => P y | .error _ => false) = true := by decide +kernel
    revert h
    cases (clops Ex.cfg.code Ex.lin Ex.pdS (cops Ex.cfg.code Ex.pdS 8) 8).inv Ex.N2w with
    | ok y => exact fun h => ⟨y, rfl, h⟩
    | error e => exact fun h => by cases h
  refine ⟨Ex.N2w, Ex.pdS, x, y, hv, Ex.pdS_reach, hx, (C19_inv _ Ex.lin_lawful hv hx ex).2.1, ⟨8, 8, hy⟩, fun h => ?_⟩
  simp only [P, decide_eq_true_eq] at hP
  exact hP (h.right Ex.o 0 1 (fun _ => Nat.zero_lt_one) (by decide) (by decide))

namespace Ex

/-- Caches after `B.dense`, `B.cholesky` of all matrices and `B.schur` of all Woodbury matrices with a Diagonal middle factor, where they return. -/
def warm : Slots ℚ :=
  ⟨fun a => if a.hasDense = true then (stepDense (cops cfg.code .empty 8) a).toOption else none,
   fun a => if a.hasChol = true then (stepChol lin (cops cfg.code .empty 8) (clops cfg.code lin .empty (cops cfg.code .empty 8) 8) a).toOption else none,
   fun a => match a with
    | .wb d l r (.diag k) => (schurM (cops cfg.code .empty 8) (clops cfg.code lin .empty (cops cfg.code .empty 8) 8) d l r (.diag k)).toOption
    | _ => none⟩

theorem warm_reach : Reach cfg lin warm := by
  refine .fill .new (fun a => ?_) (fun a => ?_) fun a => ?_
  · by_cases h0 : a.hasDense = true
    · cases h : stepDense (cops cfg.code .empty 8) a with
      | error e => left; show (if a.hasDense = true then _ else none) = none; rw [if_pos h0, h]; rfl
      | ok x => exact .inr ⟨rfl, h0, 8, x, by show (if a.hasDense = true then _ else none) = some x; rw [if_pos h0, h]; rfl, h⟩
    · left; show (if a.hasDense = true then _ else none) = none; rw [if_neg h0]
  · by_cases h0 : a.hasChol = true
    · cases h : stepChol lin (cops cfg.code .empty 8) (clops cfg.code lin .empty (cops cfg.code .empty 8) 8) a with
      | error e => left; show (if a.hasChol = true then _ else none) = none; rw [if_pos h0, h]; rfl
      | ok x => exact .inr ⟨rfl, h0, 8, 8, x, by show (if a.hasChol = true then _ else none) = some x; rw [if_pos h0, h]; rfl, h⟩
    · left; show (if a.hasChol = true then _ else none) = none; rw [if_neg h0]
  · cases a with
    | wb d l r k =>
      cases k with
      | diag k =>
        cases h : schurM (cops cfg.code .empty 8) (clops cfg.code lin .empty (cops cfg.code .empty 8) 8) d l r (.diag k) with
        | error e => left; show Except.toOption _ = none; rw [h]; rfl
        | ok x => exact .inr ⟨rfl, d, l, r, .diag k, 8, 8, x, rfl, by show Except.toOption _ = some x; rw [h]; rfl, .inl h⟩
      | _ => exact .inl rfl
    | _ => exact .inl rfl

theorem warm_agrees (d : Tensor ℚ) (l r m : Mat ℚ) (h : (warm.schur (.wb d l r m)).isSome = true) : SchurAgrees cfg lin d l r m := by
  cases m with
  | diag k => exact C30_agree_diagonal _ _ _ _
  | _ => cases h

/-- A Woodbury matrix with Diagonal middle factor. -/
def W4 : Mat ℚ := .wb (v [1, 1]) (.num (m 2 1 [1, 2])) (.num (m 2 1 [1, 2])) (.diag (v [4]))

/- Its Schur complement and its dense form are in the caches, and its inverse is as without caches. -/
example : (warm.schur W4).isSome = true ∧ (warm.dense W4).isSome = true := by decide +kernel
example (x : Mat ℚ) : CReturns cfg lin warm (fun _ L => L.inv W4) x ↔ LReturns cfg lin (fun _ L => L.inv W4) x :=
  C30_inv lin_total warm_reach warm_agrees W4 x
example : isOk ((clops cfg.code lin warm (cops cfg.code warm 8) 8).inv W4) = true := by decide +kernel
example : IsSymm (m 2 2 [4, 2, 2, 5]) ∧ (∃ r, LReturns cfg lin (fun _ L => L.inv A2) r ∧ LExact cfg lin fun _ L => L.inv A2) ∧
    ∃ r, LReturns cfg lin (fun _ L => L.pdInv A2) r ∧ LExact cfg lin fun _ L => L.pdInv A2 :=
  ⟨A2_symm, lmeets (LCalls.inv _) (n := 8) (m := 8) (by decide +kernel), lmeets (LCalls.pdInv _) (n := 8) (m := 8) (by decide +kernel)⟩

end Ex

end Verif
