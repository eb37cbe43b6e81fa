/-
C60, continued: calls determine their results, hence histories do not depend on how the initial values are represented; observations at the end of a history.
-/
import Verif.Prog

set_option linter.unusedSectionVars false

namespace Verif

variable {K : Type} [Field K] [LinearOrder K] [IsStrictOrderedRing K]

/-! ### The specifications determine the result -/

theorem IsTranspose.unique {a r s : Tensor K} (h : IsTranspose a r) (h' : IsTranspose a s) : r = s := by
  have e := h.shape.trans h'.shape.symm
  refine LExpr.eq_of_entries (by simp [Tensor.rank, h.shape]) e fun β i j hβ hi hj => ?_
  rw [h.entries β i j hβ hi hj, h'.entries β i j (by rw [← bt_of_sh e]; exact hβ) (by rw [← rows_of_sh e]; exact hi) (by rw [← cols_of_sh e]; exact hj)]

theorem IsMatProd.unique {a b r s : Tensor K} (h : IsMatProd a b r) (h' : IsMatProd a b s) : r = s := by
  have e := h.shape.trans h'.shape.symm
  refine LExpr.eq_of_entries (by simp [Tensor.rank, h.shape]) e fun β i j hβ hi hj => ?_
  rw [h.entries β i j hβ hi hj, h'.entries β i j (by rw [← bt_of_sh e]; exact hβ) (by rw [← rows_of_sh e]; exact hi) (by rw [← cols_of_sh e]; exact hj)]

theorem IsKron.unique {a b r s : Tensor K} (h : IsKron a b r) (h' : IsKron a b s) : r = s := by
  have e := h.shape.trans h'.shape.symm
  refine LExpr.eq_of_entries (by simp [Tensor.rank, h.shape]) e fun β i j hβ hi hj => ?_
  have hi : i < a.rows * b.rows := by simpa [Tensor.rows, h.shape] using hi
  have hj : j < a.cols * b.cols := by simpa [Tensor.cols, h.shape] using hj
  have pb : 0 < b.rows := Nat.pos_of_ne_zero fun h0 => by simp [h0] at hi
  have pc : 0 < b.cols := Nat.pos_of_ne_zero fun h0 => by simp [h0] at hj
  have i1 : i / b.rows < a.rows := Nat.div_lt_of_lt_mul (by rw [mul_comm]; exact hi)
  have j1 : j / b.cols < a.cols := Nat.div_lt_of_lt_mul (by rw [mul_comm]; exact hj)
  have ei : i / b.rows * b.rows + i % b.rows = i := by rw [mul_comm]; exact Nat.div_add_mod i b.rows
  have ej : j / b.cols * b.cols + j % b.cols = j := by rw [mul_comm]; exact Nat.div_add_mod j b.cols
  have x := h.entries β _ _ _ _ hβ i1 j1 (Nat.mod_lt i pb) (Nat.mod_lt j pc)
  have y := h'.entries β _ _ _ _ (by rw [← bt_of_sh e]; exact hβ) i1 j1 (Nat.mod_lt i pb) (Nat.mod_lt j pc)
  rw [ei, ej] at x y
  rw [x, y]

theorem IsTake.unique {k : ℕ} {js : List ℕ} {a r s : Tensor K} (h : IsTake k js a r) (h' : IsTake k js a s) : r = s :=
  Tensor.ext_inRange (h.shape.trans h'.shape.symm) fun i hi => by
    rw [h.entries i hi, h'.entries i (by rw [h'.shape, ← h.shape]; exact hi)]

theorem IsSubmatrix.unique {js js' : List ℕ} {a r s : Tensor K} (h : IsSubmatrix js js' a r) (h' : IsSubmatrix js js' a s) : r = s := by
  refine LExpr.eq_of_entries (by simp [Tensor.rank, h.shape]) (h.shape.trans h'.shape.symm) fun β i j hβ hi hj => ?_
  have hβ : InRange a.bt β := by simpa [Tensor.bt, h.shape] using hβ
  have hi : i < js.length := by simpa [Tensor.rows, h.shape] using hi
  have hj : j < js'.length := by simpa [Tensor.cols, h.shape] using hj
  rw [h.entries β i j hβ hi hj, h'.entries β i j hβ hi hj]

theorem IsBroadcast.unique {sh : Shp} {a r s : Tensor K} (h : IsBroadcast sh a r) (h' : IsBroadcast sh a s) : r = s :=
  Tensor.ext_inRange (h.shape.trans h'.shape.symm) fun i hi => by
    rw [h.shape] at hi
    rw [h.entries i hi, h'.entries i hi]

theorem IsTile.unique {reps : List ℕ} {a r s : Tensor K} (h : IsTile reps a r) (h' : IsTile reps a s) : r = s := by
  have e : r.sh = s.sh := shp_ext (h.rank.trans h'.rank.symm) fun k => by rw [h.shape, h'.shape]
  exact Tensor.ext_inRange e fun i hi => by rw [h.entries i hi, h'.entries i (by rw [← e]; exact hi)]

theorem IsConcat.unique {k : ℕ} {ts : List (Tensor K)} {r s : Tensor K} (h0 : ts ≠ []) (h : IsConcat k ts r) (h' : IsConcat k ts s) : r = s := by
  obtain ⟨u, hu⟩ := List.exists_mem_of_ne_nil ts h0
  refine Tensor.ext_inRange ((h.shape u hu).trans (h'.shape u hu).symm) fun i hi => ?_
  have hk : i k < (ts.map fun t => dim t.sh k).sum := by
    have := hi k
    rwa [h.shape u hu, dim_set _ _ _ _ (h.axis u hu), if_pos rfl] at this
  obtain ⟨p, x, j, hp, hj, e⟩ := exists_part hk
  rw [List.getElem?_map] at hp
  obtain ⟨t, ht, rfl⟩ := Option.map_eq_some_iff.1 hp
  have hm := List.mem_of_getElem? ht
  have hr : InRange t.sh (Function.update i k j) := fun q => by
    by_cases hq : q = k
    · subst hq; simpa using hj
    · rw [Function.update_of_ne hq]
      have := hi q
      rwa [h.shape t hm, dim_set _ _ _ _ (h.axis t hm), if_neg hq] at this
  have x1 := h.entries p t ht _ hr
  have x2 := h'.entries p t ht _ hr
  have ee : Function.update (Function.update i k j) k (((ts.take p).map fun t => dim t.sh k).sum + Function.update i k j k) = i := by
    simp [e]
  rw [ee] at x1 x2
  rw [x1, x2]

theorem IsBlock.unique {bt : Shp} {hs ws : List ℕ} {ts : List (List (Tensor K))} {r s : Tensor K} (hg : IsGrid hs ws ts) (h : IsBlock bt hs ws ts r) (h' : IsBlock bt hs ws ts s) : r = s := by
  refine LExpr.eq_of_entries (by simp [Tensor.rank, h.shape]) (h.shape.trans h'.shape.symm) fun β i j hβ hi hj => ?_
  have hβ : InRange bt β := by simpa [Tensor.bt, h.shape] using hβ
  have hi : i < hs.sum := by simpa [Tensor.rows, h.shape] using hi
  have hj : j < ws.sum := by simpa [Tensor.cols, h.shape] using hj
  obtain ⟨p, x, i', hp, hi', rfl⟩ := exists_part hi
  obtain ⟨q, y, j', hq, hj', rfl⟩ := exists_part hj
  obtain ⟨row, hrow, g⟩ := forall₂_getElem? hg hp
  obtain ⟨t, ht, e1, e2⟩ := forall₂_getElem? g hq
  rw [h.entries p q row t hrow ht β i' j' hβ (by omega) (by omega), h'.entries p q row t hrow ht β i' j' hβ (by omega) (by omega)]

theorem IsGrid.unique {hs ws hs' ws' : List ℕ} {ts : List (List (Tensor K))} (h0 : hs ≠ []) (h : IsGrid hs ws ts) (h' : IsGrid hs' ws' ts) (hw : ws ≠ []) : hs = hs' ∧ ws = ws' := by
  have hws : ∀ {l l' : List ℕ} {row : List (Tensor K)} {x y : ℕ}, List.Forall₂ (fun w t => t.rows = x ∧ t.cols = w) l row → List.Forall₂ (fun w t => t.rows = y ∧ t.cols = w) l' row → l = l' := by
    intro l l' row x y a b
    induction a generalizing l' with
    | nil => cases b; rfl
    | cons a _ ih => cases b with | cons b1 b2 => rw [ih b2, ← a.2, ← b1.2]
  obtain rfl : ws = ws' := by
    cases h with
    | nil => exact absurd rfl h0
    | cons a _ => cases h' with | cons b _ => exact hws a b
  refine ⟨?_, rfl⟩
  clear h0
  induction h generalizing hs' with
  | nil => cases h'; rfl
  | cons a _ ih =>
    cases h' with
    | cons b b2 =>
      rw [ih b2]
      cases a with
      | nil => exact absurd rfl hw
      | cons a1 _ => cases b with | cons b1 _ => rw [← a1.1, ← b1.1]

theorem IsBlockDiag.unique {bt : Shp} {ts : List (Tensor K)} {r s : Tensor K} (h : IsBlockDiag bt ts r) (h' : IsBlockDiag bt ts s) : r = s := by
  refine LExpr.eq_of_entries (by simp [Tensor.rank, h.shape]) (h.shape.trans h'.shape.symm) fun β i j hβ hi hj => ?_
  have hβ : InRange bt β := by simpa [Tensor.bt, h.shape] using hβ
  have hi : i < (ts.map Tensor.rows).sum := by simpa [Tensor.rows, h.shape] using hi
  have hj : j < (ts.map Tensor.cols).sum := by simpa [Tensor.cols, h.shape] using hj
  obtain ⟨p, x, i', hp, hi', rfl⟩ := exists_part hi
  obtain ⟨q, y, j', hq, hj', rfl⟩ := exists_part hj
  rw [List.getElem?_map] at hp hq
  obtain ⟨t, ht, rfl⟩ := Option.map_eq_some_iff.1 hp
  obtain ⟨u, hu, rfl⟩ := Option.map_eq_some_iff.1 hq
  simp only [← List.map_take]
  by_cases hpq : p = q
  · subst hpq
    rw [ht] at hu; cases hu
    rw [h.blocks p t ht β i' j' hβ hi' hj', h'.blocks p t ht β i' j' hβ hi' hj']
  · rw [h.zeros p q t u hpq ht hu β i' j' hβ hi' hj', h'.zeros p q t u hpq ht hu β i' j' hβ hi' hj']

namespace Call

/-- The specification of the call determines the result: all calls but solving linear systems (whose matrices need not be regular), Cholesky factors and roots. -/
def determined {V : Type} : Call K V → Prop
  | .solve .. | .cholSolve .. | .triSolve .. | .chol _ | .root _ => False
  | _ => True

theorem determined_map {V W : Type} (f : V → W) (k : Call K V) : (k.map f).determined ↔ k.determined := by
  cases k <;> rfl

theorem spec_unique {k : Call K (Tensor K)} {s t : Tensor K} (hk : k.determined) (hs : k.Spec s) (ht : k.Spec t) : s = t := by
  cases k with
  | lit x => exact hs.trans ht.symm
  | add a b | sub a b | mul a b => exact (IsEltwise.eq hs).trans (IsEltwise.eq ht).symm
  | div a b => exact hs.1.eq.trans ht.1.eq.symm
  | matmul ta tb a b => exact IsMatProd.unique hs ht
  | neg a | abs a | power n a => exact (IsMap.eq hs).trans (IsMap.eq ht).symm
  | tr a => exact IsTranspose.unique hs ht
  | sqrt a =>
    have hs : IsRel _ a s := hs
    have ht : IsRel _ a t := ht
    refine Tensor.ext_inRange (hs.shape.trans ht.shape.symm) fun i hi => ?_
    obtain ⟨p1, e1⟩ := hs.entries i hi
    obtain ⟨p2, e2⟩ := ht.entries i (by rw [ht.shape, ← hs.shape]; exact hi)
    exact (mul_self_inj p1 p2).1 (e1.trans e2.symm)
  | kron a b => exact IsKron.unique hs ht
  | take a sel axis =>
    obtain ⟨k, js, h1, h2, h3⟩ := hs
    obtain ⟨k', js', h1', h2', h3'⟩ := ht
    obtain rfl : k = k' := by unfold AxisAt at h1 h1'; omega
    obtain rfl := Sel.picks_unique h2 h2'
    exact h3.unique h3'
  | submatrix a sel =>
    obtain ⟨k, js, h1, h2, h3⟩ := hs
    obtain ⟨k', js', h1', h2', h3'⟩ := ht
    obtain rfl := Sel.picks_unique h1 h1'
    obtain rfl := Sel.picks_unique h2 h2'
    exact h3.unique h3'
  | block rows =>
    obtain ⟨h1, w1, a1, b1, g1, s1⟩ := hs
    obtain ⟨h2, w2, a2, b2, g2, s2⟩ := ht
    obtain ⟨rfl, rfl⟩ := g1.unique a1 g2 b1
    exact s1.unique g1 s2
  | blockDiag as => exact IsBlockDiag.unique hs ht
  | concat as axis =>
    obtain ⟨h0, k, h1, h2⟩ := hs
    obtain ⟨_, k', h1', h2'⟩ := ht
    obtain ⟨u, hu⟩ := List.exists_mem_of_ne_nil as h0
    obtain rfl : k = k' := by have x := h1 u hu; have y := h1' u hu; unfold AxisAt at x y; omega
    exact h2.unique h0 h2'
  | tile a reps => exact IsTile.unique hs ht
  | broadcastBatchTo s a => exact IsBroadcast.unique hs ht
  | broadcastTo a n k s => exact IsBroadcast.unique hs ht
  | inv a | pdInv a => exact IsInverse.unique hs ht
  | solve a b => exact hk.elim
  | cholSolve a b => exact hk.elim
  | triSolve lower a b => exact hk.elim
  | chol a => exact hk.elim
  | root a => exact hk.elim
  | iqf same a b c =>
    obtain ⟨ai, p, h1, h2, h3⟩ := hs
    obtain ⟨ai', p', h1', h2', h3'⟩ := ht
    obtain rfl := h1.unique h1'
    obtain rfl := h2.unique h2'
    exact h3.unique h3'

end Call

theorem DHist.unique {st s t : List (Tensor K)} {ks : List (Call K ℕ)} (hk : ∀ k ∈ ks, k.determined) (hs : DHist st ks s) (ht : DHist st ks t) : s = t := by
  induction hs with
  | nil st => cases ht; rfl
  | step hv h _ ih =>
    cases ht with
    | step hv' h' ht =>
      obtain rfl := Call.spec_unique ((Call.determined_map _ _).2 (hk _ (by simp))) h h'
      exact ih (fun k hm => hk k (by simp [hm])) ht

/-- C60.  Representation does not matter to programs: two histories of the same calls that start with values representing the same arrays end with values representing the same arrays,
whatever the classes of the initial values and the configurations (tolerances, backends) of the two runs. -/
theorem C60_representation (c c' : Cfg K) {lin lin' : LinEnv K} (hl : lin.Lawful) (hl' : lin'.Lawful) {st st' fin fin' : List (Mat K)} {ks : List (Call K ℕ)} (hk : ∀ k ∈ ks, k.determined)
    (hv : ∀ a ∈ st, a.Valid) (hv' : ∀ a ∈ st', a.Valid) (he : st.map den = st'.map den) (h : Hist c lin st ks fin) (h' : Hist c' lin' st' ks fin') :
    fin.map den = fin'.map den := by
  have d := (C60_refines c hl hv h).2
  have d' := (C60_refines c' hl' hv' h').2
  rw [← he] at d'
  exact d.unique hk d'

/-! ### Observations -/

/-- A call of the library that gives an array of numbers. -/
inductive Obs (V : Type) where
  | dense (a : V)
  | diag (a : V)
  | trace (a : V)
  | sumAll (a : V)
  | sumAxis (a : V) (axis : Int)
  | meanAll (a : V)
  | meanAxis (a : V) (axis : Int)
  | logdet (a : V)
  | ratio (a b : V)
  | matmulDiag (ta tb : Bool) (a b : V)
  | iqfDiag (same : Bool) (a b c : V)
  | reshape (s : Shp) (a : V)

namespace Obs

def args {V : Type} : Obs V → List V
  | .dense a | .diag a | .trace a | .sumAll a | .sumAxis a _ | .meanAll a | .meanAxis a _ | .logdet a | .reshape _ a => [a]
  | .ratio a b | .matmulDiag _ _ a b => [a, b]
  | .iqfDiag _ a b c => [a, b, c]

def map {V W : Type} (f : V → W) : Obs V → Obs W
  | .dense a => .dense (f a)
  | .diag a => .diag (f a)
  | .trace a => .trace (f a)
  | .sumAll a => .sumAll (f a)
  | .sumAxis a x => .sumAxis (f a) x
  | .meanAll a => .meanAll (f a)
  | .meanAxis a x => .meanAxis (f a) x
  | .logdet a => .logdet (f a)
  | .ratio a b => .ratio (f a) (f b)
  | .matmulDiag ta tb a b => .matmulDiag ta tb (f a) (f b)
  | .iqfDiag same a b c => .iqfDiag same (f a) (f b) (f c)
  | .reshape s a => .reshape s (f a)

/-- What the library does (arrays are `Mat.num`; sums and means may be represented by matrices). -/
def run (env : Env K) (B : Ops K) (L : LOps K) : Obs (Mat K) → E (Mat K)
  | .dense a => Mat.num <$> B.dense a
  | .diag a => Mat.num <$> B.diag a
  | .trace a => Mat.num <$> traceM B a
  | .sumAll a => sumFull B a none
  | .sumAxis a x => sumFull B a (some x)
  | .meanAll a => meanM env B a none
  | .meanAxis a x => meanM env B a (some x)
  | .logdet a => Mat.num <$> L.logdet a
  | .ratio a b => Mat.num <$> ratioM B L a b
  | .matmulDiag ta tb a b => Mat.num <$> Verif.matmulDiag B ta tb a b
  | .iqfDiag same a b c => Mat.num <$> iqfDiagM B L same a b c
  | .reshape s a => Mat.num <$> reshapeM B a s

/-- When the observation is covered. -/
def Dom : Obs (Mat K) → Prop
  | .dense _ | .sumAll _ | .meanAll _ | .reshape _ _ => True
  | .diag a | .trace a => 2 ≤ (den a).rank ∧ a.DiagOk
  | .sumAxis a _ | .meanAxis a _ => 2 ≤ (den a).rank
  | .logdet a => a.LdDom
  | .ratio a b => BatchCompat a b ∧ 2 ≤ (den a).rank ∧ (den a).rows = (den a).cols ∧ (den a).rows = (den b).rows ∧ (b.kind ≠ some .wb → a.CholDom ∧ a.cholNZ = true) ∧ b.QfDom ∧
      ∃ bi, IsInverse (den b) bi
  | .matmulDiag ta tb a b => BatchCompat a b ∧ 2 ≤ (den a).rank ∧ 2 ≤ (den b).rank ∧
      (if ta then tr (den a) else den a).cols = (if tb then tr (den b) else den b).rows ∧ (if ta then tr (den a) else den a).rows = (if tb then tr (den b) else den b).cols ∧
      (a.readsDiag = true → b.DiagOk) ∧ (b.readsDiag = true → a.DiagOk)
  | .iqfDiag same a b c => (∃ S, Fits S (den a).bt ∧ Fits S (den b).bt ∧ Fits S (den c).bt) ∧ 2 ≤ (den b).rank ∧ 2 ≤ (den c).rank ∧ a.QfDom ∧ (∃ ai, IsInverse (den a) ai) ∧
      (same = true → c = b) ∧ ¬ (b.kind = some .zero ∧ c.kind = some .zero) ∧ (den b).rows = (den a).rows ∧ (den c).rows = (den a).rows ∧ (den b).cols = (den c).cols ∧
      (a.kind = some .wb → b.DiagOk)

/-- The specification on dense arrays. -/
def Spec (lin : LinEnv K) : Obs (Tensor K) → Tensor K → Prop
  | .dense a, t => t = a
  | .diag a, t => IsDiagonalOf a t
  | .trace a, t => IsTrace a t
  | .sumAll a, t => IsSumAll a t
  | .sumAxis a x, t => ∃ k, AxisAt a.rank x k ∧ IsSumAxis k a t
  | .meanAll a, t => ∃ s, IsSumAll a s ∧ IsMap (· / (size a.sh : K)) s t
  | .meanAxis a x, t => ∃ k s, AxisAt a.rank x k ∧ IsSumAxis k a s ∧ IsMap (· / (dim a.sh k : K)) s t
  | .logdet a, t => IsLogdet lin a t
  | .ratio a b, t => ∃ bi, IsInverse b bi ∧ IsRatio a bi t
  | .matmulDiag ta tb a b, t => ∃ p, IsMatProd (if ta then tr a else a) (if tb then tr b else b) p ∧ IsDiagonalOf p t
  | .reshape s a, t => IsReshape s a t
  | .iqfDiag _ a b c, t => ∃ ai p q, IsInverse a ai ∧ IsMatProd (tr b) ai p ∧ IsMatProd p c q ∧ IsDiagonalOf q t

theorem args_map {V W : Type} (f : V → W) (k : Obs V) : (k.map f).args = k.args.map f := by
  cases k <;> simp [map, args]

theorem map_map {V W U : Type} (f : V → W) (g : W → U) (k : Obs V) : (k.map f).map g = k.map fun v => g (f v) := by
  cases k <;> simp [map]

theorem map_num {x : E (Tensor K)} {r : Mat K} (h : Mat.num <$> x = .ok r) : ∃ t, x = .ok t ∧ r = .num t := by
  cases x with
  | error e => cases h
  | ok t => cases h; exact ⟨t, rfl, rfl⟩

theorem num_inj {x y : E (Tensor K)} (h : Mat.num <$> x = Mat.num <$> y) : x = y := by
  cases x <;> cases y <;> cases h <;> rfl

theorem num_returns {c : Cfg K} {lin : LinEnv K} {f : Ops K → LOps K → E (Tensor K)} {r : Mat K} (hr : LReturns c lin (fun B L => Mat.num <$> f B L) r)
    (hx : LExact c lin fun B L => Mat.num <$> f B L) : ∃ t, r = .num t ∧ LReturns c lin f t ∧ LExact c lin f := by
  obtain ⟨m, n, h⟩ := hr
  obtain ⟨t, ht, rfl⟩ := map_num h
  exact ⟨t, rfl, ⟨m, n, ht⟩, fun m n => num_inj (hx m n)⟩

theorem run_spec (c : Cfg K) {lin : LinEnv K} (hl : lin.Lawful) {k : Obs (Mat K)} {r : Mat K} (hv : ∀ a ∈ k.args, a.Valid) (hd : k.Dom)
    (hr : LReturns c lin (fun B L => k.run c.code B L) r) (hx : LExact c lin fun B L => k.run c.code B L) : (k.map den).Spec lin (den r) := by
  cases k with
  | dense a =>
    obtain ⟨t, rfl, ⟨m, hr⟩, hx⟩ := num_returns (f := fun B _ => B.dense a) hr hx
    exact C04_dense c (hv a (by simp [args])) hr (hx m)
  | diag a =>
    obtain ⟨t, rfl, ⟨m, hr⟩, hx⟩ := num_returns (f := fun B _ => B.diag a) hr hx
    exact C11_diag c (hv a (by simp [args])) hd.1 hd.2 hr (hx m)
  | trace a =>
    obtain ⟨t, rfl, ⟨m, hr⟩, hx⟩ := num_returns (f := fun B _ => traceM B a) hr hx
    exact C11_trace c (hv a (by simp [args])) hd.1 hd.2 hr (hx m)
  | reshape s a =>
    obtain ⟨t, rfl, ⟨m, hr⟩, hx⟩ := num_returns (f := fun B _ => reshapeM B a s) hr hx
    exact C17_reshape c (hv a (by simp [args])) hr (hx m)
  | sumAll a =>
    obtain ⟨m, hr⟩ := hr
    exact C12_sum_all c (hv a (by simp [args])) hr (hx m)
  | sumAxis a x =>
    obtain ⟨m, hr⟩ := hr
    exact C12_sum_axis c (hv a (by simp [args])) hd hr (hx m)
  | meanAll a =>
    obtain ⟨m, hr⟩ := hr
    exact C12_mean_all c (hv a (by simp [args])) hr (hx m)
  | meanAxis a x =>
    obtain ⟨m, hr⟩ := hr
    exact C12_mean_axis c (hv a (by simp [args])) hd hr (hx m)
  | logdet a =>
    obtain ⟨t, rfl, hr, hx⟩ := num_returns (f := fun _ L => L.logdet a) hr hx
    exact C22_logdet c hl (hv a (by simp [args])) hd hr hx
  | ratio a b =>
    obtain ⟨t, rfl, hr, hx⟩ := num_returns (f := fun B L => ratioM B L a b) hr hx
    obtain ⟨hc, h2, hs, hab, hda, hdb, bi, hi⟩ := hd
    exact ⟨bi, hi, C23_ratio c hl (hv a (by simp [args])) (hv b (by simp [args])) hc h2 hs hab hda hdb hi hr hx⟩
  | matmulDiag ta tb a b =>
    obtain ⟨t, rfl, ⟨m, hr⟩, hx⟩ := num_returns (f := fun B _ => Verif.matmulDiag B ta tb a b) hr hx
    obtain ⟨hc, h2, h2', h1, h3, h4, h5⟩ := hd
    exact C23_matmul_diag c (hv a (by simp [args])) (hv b (by simp [args])) hc h2 h2' h1 h3 h4 h5 hr (hx m)
  | iqfDiag same a b d =>
    obtain ⟨t, rfl, hr, hx⟩ := num_returns (f := fun B L => iqfDiagM B L same a b d) hr hx
    obtain ⟨⟨S, fa, fb, fd⟩, h2b, h2d, hq, ⟨ai, hi⟩, hs, hz, h3, h4, h5, h6⟩ := hd
    obtain ⟨p, q, e1, e2, e3⟩ := C23_iqf_diag c hl ((hv a (by simp [args])).own.mono fa) ((hv b (by simp [args])).own.mono fb) ((hv d (by simp [args])).own.mono fd) h2b h2d hq hi hs hz h3 h4 h5 h6 hr hx
    exact ⟨ai, p, q, hi, e1, e2, e3⟩

end Obs

/-- C60.  What is observed at the end of a history is what is observed at the end of the same history on dense arrays. -/
theorem C60_observe (c : Cfg K) {lin : LinEnv K} (hl : lin.Lawful) {st st' : List (Mat K)} {ks : List (Call K ℕ)} {o : Obs ℕ} {r : Mat K} (hv : ∀ a ∈ st, a.Valid) (h : Hist c lin st ks st')
    (ho : ∀ i ∈ o.args, i < st'.length) (hd : (o.map (readVar (.num (scalarT 0)) st')).Dom)
    (hr : LReturns c lin (fun B L => (o.map (readVar (.num (scalarT 0)) st')).run c.code B L) r)
    (hx : LExact c lin fun B L => (o.map (readVar (.num (scalarT 0)) st')).run c.code B L) :
    ∃ ds, DHist (st.map den) ks ds ∧ (o.map (readVar (scalarT 0) ds)).Spec lin (den r) := by
  obtain ⟨hv', d⟩ := C60_refines c hl hv h
  refine ⟨_, d, ?_⟩
  have s := Obs.run_spec c hl (by
    intro a hm
    rw [Obs.args_map] at hm
    obtain ⟨i, hi, rfl⟩ := List.mem_map.1 hm
    exact readVar_valid hv' (ho i hi)) hd hr hx
  rw [Obs.map_map] at s
  have e : (fun v => den (readVar (.num (scalarT 0)) st' v)) = readVar (scalarT 0) (st'.map den) := by funext i; rw [readVar_map]
  rw [e] at s
  exact s

/-! ### An example: `s = W + D; i = inv(s); p = i @ W; k = kron(p, D)`, and its trace -/

theorem Call.calls (env : Env K) (lin : LinEnv K) (fuel : ℕ) (k : Call K (Mat K)) : LCalls fun B L => k.run env lin fuel B L := by
  intro bad B C L M h hL
  cases k with
  | lit x => exact .refl _
  | add a b => exact h.add a b
  | sub a b => exact Calls.subtract env a b _ _ _ h
  | mul a b => exact h.mul a b
  | div a b => exact Calls.divide env a b _ _ _ h
  | matmul ta tb a b => exact h.matmul ta tb a b
  | neg a => exact .refl _
  | tr a => exact .refl _
  | abs a => exact Calls.elt _ a _ _ _ h
  | power n a => exact Calls.elt _ a _ _ _ h
  | sqrt a => exact Calls.elt _ a _ _ _ h
  | kron a b => exact .refl _
  | take a sel axis => exact Calls.take fuel a sel axis _ _ _ h
  | submatrix a sel => exact Calls.submatrix fuel a sel _ _ _ h
  | block rows => exact Calls.block rows _ _ _ h
  | blockDiag as => exact Calls.blockDiag env as _ _ _ h
  | concat as axis => exact Calls.concat as axis _ _ _ h
  | tile a reps => exact Calls.tile a reps _ _ _ h
  | broadcastBatchTo s a => exact .refl _
  | broadcastTo a n k s => exact broadcastTo_below h _ _
  | inv a => exact hL.inv a
  | pdInv a => exact hL.pdInv a
  | solve a b => exact hL.solve a b
  | cholSolve a b => exact hL.cholSolve a b
  | triSolve lower a b =>
    show Below bad (triangularSolve L lower a b) (triangularSolve M lower a b)
    cases a with
    | lt t => exact Below.ite (hL.solve _ _) (.refl _)
    | ut t => exact Below.ite (hL.solve _ _) (.refl _)
    | _ => exact .refl _
  | chol a => exact hL.chol a
  | root a => exact hL.root a
  | iqf same a b c => exact LCalls.iqf same a b c _ _ _ _ _ h hL

namespace Ex

/-- The result of a run. -/
def val (x : E (Mat ℚ)) : Mat ℚ := match x with | .ok a => a | .error _ => .num (scalarT 0)

theorem ok_val {x : E (Mat ℚ)} (h : isOk x = true) : x = .ok (val x) := by
  cases x with
  | ok a => rfl
  | error e => cases h

/-- The value of a call, with bounds for recursion. -/
def call (k : Call ℚ (Mat ℚ)) : Mat ℚ := val (k.run cfg.code lin 4 (ops cfg.strict 9) (lops cfg.code lin (ops cfg.strict 9) 9))

theorem call_meets {k : Call ℚ (Mat ℚ)} (h : isOk (k.run cfg.code lin 4 (ops cfg.strict 9) (lops cfg.code lin (ops cfg.strict 9) 9)) = true) :
    LReturns cfg lin (fun B L => k.run cfg.code lin 4 B L) (call k) ∧ LExact cfg lin fun B L => k.run cfg.code lin 4 B L := by
  have e := ok_val h
  exact ⟨LReturns.of_strict (Call.calls _ _ _ k) e, LExact.of_ok (Call.calls _ _ _ k) e⟩

def prog : List (Call ℚ ℕ) := [.add 0 1, .inv 2, .matmul false false 3 0, .kron 4 1]

def s2 : Mat ℚ := call (.add W D)
def s3 : Mat ℚ := call (.inv s2)
def s4 : Mat ℚ := call (.matmul false false s3 W)
def s5 : Mat ℚ := call (.kron s4 D)

end Ex

theorem Ex.prog_hist : Hist Ex.cfg Ex.lin [Ex.W, Ex.D] Ex.prog [Ex.W, Ex.D, Ex.s2, Ex.s3, Ex.s4, Ex.s5] := by
  have m2 := Ex.call_meets (k := .add Ex.W Ex.D) (by decide +kernel)
  have m3 := Ex.call_meets (k := .inv Ex.s2) (by decide +kernel)
  have m4 := Ex.call_meets (k := .matmul false false Ex.s3 Ex.W) (by decide +kernel)
  have m5 := Ex.call_meets (k := .kron Ex.s4 Ex.D) (by decide +kernel)
  have b3 : (den Ex.s3).sh = [2, 2] := by decide +kernel
  have b4 : (den Ex.s4).sh = [2, 2] := by decide +kernel
  refine .step 4 (by decide) ?_ m2.1 m2.2 (.step 4 (by decide) trivial m3.1 m3.2 (.step 4 (by decide) ?_ m4.1 m4.2 (.step 4 (by decide) ?_ m5.1 m5.2 (.nil _))))
  · exact ⟨Compat.refl _, noStretch_of_eq rfl rfl⟩
  · refine ⟨?_, ?_, by decide⟩
    · show Compat (den Ex.s3).bt (den Ex.W).bt
      rw [show (den Ex.s3).bt = [] by rw [Tensor.bt, b3]; rfl]
      exact Compat.refl _
    · show 2 ≤ (den Ex.s3).sh.length
      rw [b3]; exact Nat.le_refl _
  · show Compat (den Ex.s4).bt (den Ex.D).bt
    rw [show (den Ex.s4).bt = [] by rw [Tensor.bt, b4]; rfl]
    exact Compat.refl _

theorem Ex.prog_valid : ∀ a ∈ [Ex.W, Ex.D], a.Valid := by
  intro a h
  simp only [List.mem_cons, List.not_mem_nil, or_false] at h
  rcases h with rfl | rfl
  exacts [⟨[], Ex.W_wf _⟩, ⟨[], Ex.D_wf _⟩]

/-- All values of the example are valid, and the trace of the last is the trace of the array that the specification gives. -/
example : (∀ a ∈ [Ex.W, Ex.D, Ex.s2, Ex.s3, Ex.s4, Ex.s5], a.Valid) ∧ ∃ ds, DHist ([Ex.W, Ex.D].map den) Ex.prog ds :=
  ⟨(C60_refines Ex.cfg Ex.lin_lawful Ex.prog_valid Ex.prog_hist).1, _, (C60_refines Ex.cfg Ex.lin_lawful Ex.prog_valid Ex.prog_hist).2⟩

example : ∃ r, LReturns Ex.cfg Ex.lin (fun B L => (Obs.trace Ex.s3).run Ex.cfg.code B L) r ∧ LExact Ex.cfg Ex.lin fun B L => (Obs.trace Ex.s3).run Ex.cfg.code B L :=
  Ex.lmeets (fun _ _ _ _ _ h _ => Below.bind (Calls.trace _ _ _ _ h) fun _ => .refl _) (n := 9) (m := 9) (by decide +kernel)

/-- The same program on dense forms of the initial values. -/
example : ∀ k ∈ Ex.prog, k.determined := by
  intro k h
  simp only [Ex.prog, List.mem_cons, List.not_mem_nil, or_false] at h
  rcases h with rfl | rfl | rfl | rfl <;> trivial

end Verif
