/-
C17.  `B.concat`, `B.tile`, and `B.reshape`.
-/
import Verif.Sum
import Verif.Findings

set_option linter.unusedSectionVars false

namespace Verif

variable {K : Type} [Field K] [LinearOrder K]

/-! ### The model -/

/-- The blocks of a TiledBlocks with their repetitions; `none` for other matrices and for another axis. -/
def tiledParts (axis : Int) : Mat K → Option (List (Mat K × ℕ))
  | .tiled _ blk reps ax => if ax = axis then some (List.ofFn fun i => (blk i, reps i)) else none
  | _ => none

/-- `TiledBlocks(*zip(blocks, reps), axis=axis)`. -/
def mkTiledL (bs : List (Mat K × ℕ)) (axis : Int) : E (Mat K) :=
  mkTiled (n := bs.length) (fun i => (bs.get i).1) (fun i => (bs.get i).2) axis

/-- `B.concat(*as, axis)`, `ops/concat.py`; on numeric operands it is in the backend; mixed operands are not dispatched.
(`sum([el.blocks ...], ())` is the concatenation of the tuples.) -/
def concatM (B : Ops K) (as : List (Mat K)) (axis : Int) : E (Mat K) :=
  if as.all (fun a => !a.isAM) then do return .num (← nConcat axis (as.map den))
  else if !as.all Mat.isAM then .error .notFound
  else match as.mapM (tiledParts axis) with
    | some bs => mkTiledL bs.flatten axis  -- 34-38
    | none => do  -- 13-23, 28-33
      let ds ← as.mapM B.dense
      return mkDense (← nConcat axis ds)

/-- Numeric `B.tile`: `reps` are the numbers of repetitions, last axis first; missing ones are 1, missing axes have size 1. -/
def nTile (t : Tensor K) (reps : List ℕ) : Tensor K :=
  ofFn ((List.range (max t.rank reps.length)).map fun k => reps.getD k 1 * dim t.sh k) fun i => t.get fun k => i k % dim t.sh k

/-- `B.tile(a, *repetitions)`, `ops/tile.py`; `reps` last axis first. -/
def tileM (B : Ops K) (a : Mat K) (reps : List ℕ) : E (Mat K) :=
  match a with
  | .num t => .ok (.num (nTile t reps))
  | .zero bt r c => do  -- 22-31
    guardE (bt.length + 2 = reps.length) .value
    mkZero (c * reps.getD 0 1 :: r * reps.getD 1 1 :: List.zipWith (· * ·) bt (reps.drop 2))
  | .const t r c => do  -- 34-42
    guardE (t.rank + 2 = reps.length) .value
    mkConst (nTile t (reps.drop 2)) [c * reps.getD 0 1, r * reps.getD 1 1]
  | a => do return mkDense (nTile (← B.dense a) reps)  -- 15-19

/-- `B.reshape(a, *shape)`, `ops/reshape.py`: a numeric tensor. -/
def reshapeM (B : Ops K) (a : Mat K) (s : Shp) : E (Tensor K) := do
  nReshape s (← B.dense a)

/-! ### Specification -/

/-- `r` is the concatenation of `ts` along the axis at position `k` from the end: the shapes agree except along the axis, along which the sizes add up,
and the entries of every tensor start where the ones before it end. -/
structure IsConcat (k : ℕ) (ts : List (Tensor K)) (r : Tensor K) : Prop where
  axis : ∀ t ∈ ts, k < t.rank
  shape : ∀ t ∈ ts, r.sh = t.sh.set k (ts.map fun t => dim t.sh k).sum
  entries : ∀ p t, ts[p]? = some t → ∀ i, InRange t.sh i → r.get (Function.update i k (((ts.take p).map fun t => dim t.sh k).sum + i k)) = t.get i

/-- `r` is `a` repeated `reps[k]` times along the axis at position `k` from the end (missing repetitions are 1). -/
structure IsTile (reps : List ℕ) (a r : Tensor K) : Prop where
  rank : r.rank = max a.rank reps.length
  shape : ∀ k, dim r.sh k = reps.getD k 1 * dim a.sh k
  entries : ∀ i, InRange r.sh i → r.get i = a.get fun k => i k % dim a.sh k

/-- The row-major position of an entry: the last axis varies fastest. -/
def rowMajor : Shp → Idx → ℕ
  | [], _ => 0
  | d :: s, i => i 0 + d * rowMajor s (itail i)

/-- `r` has the entries of `a` in the same (row-major) order. -/
structure IsReshape (s : Shp) (a r : Tensor K) : Prop where
  shape : r.sh = s
  size : size s = size a.sh
  entries : ∀ i j, InRange s i → InRange a.sh j → rowMajor s i = rowMajor a.sh j → r.get i = a.get j

/-! ### Concatenation -/

theorem concatGet_app (k : ℕ) (ts us : List (Tensor K)) (i : Idx) :
    concatGet k (ts ++ us) i = if i k < concatDim k ts then concatGet k ts i else concatGet k us (Function.update i k (i k - concatDim k ts)) := by
  induction ts generalizing i with
  | nil => simp [concatDim]
  | cons t ts ih =>
    have hd : concatDim k (t :: ts) = dim t.sh k + concatDim k ts := by simp [concatDim]
    rw [List.cons_append, concatGet, concatGet, ih, hd]
    by_cases h1 : i k < dim t.sh k
    · rw [if_pos h1, if_pos (by omega), if_pos h1]
    · rw [if_neg h1, if_neg h1]
      simp only [Function.update_self, Function.update_idem]
      by_cases h2 : i k - dim t.sh k < concatDim k ts
      · rw [if_pos h2, if_pos (by omega)]
      · rw [if_neg h2, if_neg (by omega)]
        congr 2
        omega

theorem concatGet_flatten (k : ℕ) (ls : List (List (Tensor K))) (p : ℕ) (l : List (Tensor K)) (hp : ls[p]? = some l) (i : Idx) (hi : i k < concatDim k l) :
    concatGet k ls.flatten (Function.update i k (((ls.take p).map (concatDim k)).sum + i k)) = concatGet k l i := by
  induction ls generalizing p with
  | nil => simp at hp
  | cons l' ls ih =>
    rw [List.flatten_cons, concatGet_app]
    cases p with
    | zero =>
      simp only [List.getElem?_cons_zero, Option.some.injEq] at hp
      subst hp
      simp [hi]
    | succ p =>
      simp only [List.getElem?_cons_succ] at hp
      simp only [List.take_succ_cons, List.map_cons, List.sum_cons, Function.update_self, Function.update_idem]
      rw [if_neg (by omega), ← ih p hp]
      congr 2
      omega

theorem concatGet_single (k : ℕ) (t : Tensor K) (i : Idx) (hi : i k < dim t.sh k) : concatGet k [t] i = t.get i := by
  rw [concatGet, if_pos hi]

theorem flatten_singletons {α : Type} (l : List α) : (l.map fun t => [t]).flatten = l := by
  induction l with
  | nil => rfl
  | cons a l ih => rw [List.map_cons, List.flatten_cons, ih]; rfl

theorem concatGet_at (k : ℕ) (ts : List (Tensor K)) (p : ℕ) (t : Tensor K) (hp : ts[p]? = some t) (i : Idx) (hi : i k < dim t.sh k) :
    concatGet k ts (Function.update i k (((ts.take p).map fun t => dim t.sh k).sum + i k)) = t.get i := by
  have h := concatGet_flatten k (ts.map fun t => [t]) p [t] (by simp [hp]) i (by simpa [concatDim] using hi)
  rw [concatGet_single k t i hi, flatten_singletons, ← List.map_take, List.map_map] at h
  rw [← h]
  congr 3

theorem set_set_eq {s u : Shp} {k d : ℕ} (h : s.set k 0 = u.set k 0) : s.set k d = u.set k d := by
  have := congrArg (fun x => x.set k d) h
  simpa using this

theorem le_sum_take {ts : List (Tensor K)} {k p : ℕ} {t : Tensor K} (hp : ts[p]? = some t) :
    ((ts.take p).map fun t => dim t.sh k).sum + dim t.sh k ≤ (ts.map fun t => dim t.sh k).sum := by
  induction ts generalizing p with
  | nil => simp at hp
  | cons a l ih =>
    cases p with
    | zero => simp at hp; subst hp; simp
    | succ p =>
      simp only [List.getElem?_cons_succ] at hp
      have := ih hp
      simp only [List.take_succ_cons, List.map_cons, List.sum_cons]
      omega

/-- A tensor whose entries are read by position in the list is the concatenation. -/
theorem IsConcat.of_get {k : ℕ} {ts : List (Tensor K)} {r : Tensor K} (hk : ∀ t ∈ ts, k < t.rank) (hs : ∀ t ∈ ts, r.sh = t.sh.set k (ts.map fun t => dim t.sh k).sum)
    (g : Idx → K) (hr : ∀ i, InRange r.sh i → r.get i = g i)
    (hg : ∀ p t, ts[p]? = some t → ∀ i, InRange t.sh i → g (Function.update i k (((ts.take p).map fun t => dim t.sh k).sum + i k)) = t.get i) : IsConcat k ts r := by
  refine ⟨hk, hs, fun p t hp i hi => ?_⟩
  have hm := List.mem_of_getElem? hp
  rw [hr, hg p t hp i hi]
  rw [hs t hm]
  intro q
  rw [dim_set _ _ _ _ (hk t hm)]
  by_cases e : q = k
  · subst e
    rw [if_pos rfl, Function.update_self]
    have := le_sum_take (k := q) hp
    have := hi q
    omega
  · rw [if_neg e, Function.update_of_ne e]; exact hi q

theorem nConcat_isConcat {axis : Int} {ts : List (Tensor K)} {r : Tensor K} (h : nConcat axis ts = .ok r) :
    ∃ k, (∀ t ∈ ts, axPos t.rank axis = .ok k) ∧ ts ≠ [] ∧ IsConcat k ts r := by
  cases ts with
  | nil => simp [nConcat] at h
  | cons t ts =>
    simp only [nConcat, bind_ok_iff, guardE_ok, pure_eq_ok] at h
    obtain ⟨k, hk, _, hs, rfl⟩ := h
    have hrk : ∀ u ∈ t :: ts, u.rank = t.rank := fun u hu => by
      have := congrArg List.length (hs u hu); simpa [Tensor.rank] using this
    have hkl := axPos_lt hk
    refine ⟨k, fun u hu => by rw [hrk u hu]; exact hk, by simp, ?_⟩
    refine IsConcat.of_get (fun u hu => by rw [hrk u hu]; exact hkl) (fun u hu => ?_) (concatGet k (t :: ts)) (fun i hi => ofFn_get _ hi)
      fun p u hp i hi => concatGet_at k _ p u hp i (hi k)
    show t.sh.set k _ = u.sh.set k _
    exact (set_set_eq (hs u hu)).symm

/-! ### Concatenating TiledBlocks -/

/-- `tiledT` on a list of blocks with repetitions. -/
def tiledL (bs : List (Tensor K × ℕ)) (k : ℕ) : Tensor K :=
  let rank := (bs.map fun b => b.1.rank).foldl max 0
  let tiles := bs.map fun b => tileAx k b.2 (padT rank b.1)
  ofFn (((tiles.map fun t => t.sh.set k 1).foldr bsh []).set k (concatDim k tiles)) (concatGet k tiles)

theorem tiledT_eq_tiledL {n : ℕ} (blk : Fin n → Tensor K) (reps : Fin n → ℕ) (k : ℕ) : tiledT blk reps k = tiledL (List.ofFn fun i => (blk i, reps i)) k := by
  simp only [tiledT, tiledL, List.map_ofFn]
  rfl

theorem foldl_max_append (l l' : List ℕ) (a : ℕ) : (l ++ l').foldl max a = max (l.foldl max a) (l'.foldl max 0) := by
  have key : ∀ (l : List ℕ) (a : ℕ), l.foldl max a = max a (l.foldl max 0) := by
    intro l
    induction l with
    | nil => simp
    | cons b l ih => intro a; simp only [List.foldl_cons]; rw [ih, ih (max 0 b)]; omega
  rw [List.foldl_append, key l']

theorem foldr_bsh_append (l l' : List Shp) : (l ++ l').foldr bsh [] = bsh (l.foldr bsh []) (l'.foldr bsh []) := by
  induction l with
  | nil => simp
  | cons a l ih => simp only [List.cons_append, List.foldr_cons, ih, bsh_assoc]

theorem concatDim_flatten (k : ℕ) (ls : List (List (Tensor K))) : concatDim k ls.flatten = (ls.map (concatDim k)).sum := by
  simp only [concatDim, List.map_flatten, List.sum_flatten, List.map_map]
  rfl

theorem tiledL_of {bs : List (Mat K × ℕ)} {axis : Int} {k : ℕ} (hk : axPos ((bs.map fun b => (den b.1).rank).foldl max 0) axis = .ok k) :
    den (.tiled bs.length (fun i => (bs.get i).1) (fun i => (bs.get i).2) axis) = tiledL (bs.map fun b => (den b.1, b.2)) k := by
  have h0 : ∀ {β : Type} (f : Mat K × ℕ → β), (List.ofFn fun i => f (bs.get i)) = bs.map f := fun f => by
    rw [show (fun i => f (bs.get i)) = f ∘ bs.get from rfl, ← List.map_ofFn, List.ofFn_get]
  rw [den, tiledT_eq_tiledL, h0 fun b => (den b.1, b.2)]
  congr 1
  unfold tiledPos
  rw [h0 fun b => (den b.1).rank, hk]

/-- The blocks of `bs`, padded to rank `R` and repeated. -/
def tlTiles (R : ℕ) (bs : List (Tensor K × ℕ)) (k : ℕ) : List (Tensor K) := bs.map fun b => tileAx k b.2 (padT R b.1)
/-- The shape of the blocks `bs` together, with size 1 along the axis. -/
def tlBase (R : ℕ) (bs : List (Tensor K × ℕ)) (k : ℕ) : Shp := ((tlTiles R bs k).map fun t => t.sh.set k 1).foldr bsh []

theorem tiledL_eq {bs : List (Tensor K × ℕ)} {k R : ℕ} (hR : (bs.map fun b => b.1.rank).foldl max 0 = R) :
    tiledL bs k = ofFn ((tlBase R bs k).set k (concatDim k (tlTiles R bs k))) (concatGet k (tlTiles R bs k)) := by
  subst hR; rfl

theorem foldr_bsh_const {l : List Shp} {s : Shp} (hl : l ≠ []) (h : ∀ t ∈ l, t = s) : l.foldr bsh [] = s := by
  induction l with
  | nil => exact absurd rfl hl
  | cons a l ih =>
    obtain rfl := h a (by simp)
    rw [List.foldr_cons]
    by_cases e : l = []
    · subst e; simp
    · rw [ih e fun t ht => h t (by simp [ht]), bsh_self]

theorem foldr_bsh_flatten (ls : List (List Shp)) : ls.flatten.foldr bsh [] = (ls.map fun l => l.foldr bsh []).foldr bsh [] := by
  induction ls with
  | nil => rfl
  | cons l ls ih => rw [List.flatten_cons, foldr_bsh_append, ih, List.map_cons, List.foldr_cons]

theorem foldl_max_flatten {ls : List (List ℕ)} {R : ℕ} (hl : ls ≠ []) (h : ∀ l ∈ ls, l.foldl max 0 = R) : ls.flatten.foldl max 0 = R := by
  induction ls with
  | nil => exact absurd rfl hl
  | cons l ls ih =>
    rw [List.flatten_cons, foldl_max_append, h l (by simp)]
    by_cases e : ls = []
    · subst e; simp
    · rw [ih e fun t ht => h t (by simp [ht])]; omega

theorem tlBase_length {R : ℕ} {bs : List (Tensor K × ℕ)} {k : ℕ} (hn : bs ≠ []) (hR : (bs.map fun b => b.1.rank).foldl max 0 = R) : (tlBase R bs k).length = R := by
  apply length_foldr_bsh
  · simpa [tlTiles] using hn
  · intro s hs
    simp only [tlTiles, List.mem_map, exists_exists_and_eq_and] at hs
    obtain ⟨b, hb, rfl⟩ := hs
    have : b.1.rank ≤ R := by
      rw [← hR]; exact (le_foldl_max _ 0).2 _ (List.mem_map.2 ⟨b, hb, rfl⟩)
    rw [List.length_set, tileAx, ofFn_sh, List.length_set, padT_sh, length_padS _ _ this]

theorem dim_tlBase {R : ℕ} {bs : List (Tensor K × ℕ)} {k : ℕ} (hk : k < R) (hR : (bs.map fun b => b.1.rank).foldl max 0 = R) : dim (tlBase R bs k) k = 1 := by
  apply dim_foldr_bsh_one
  intro s hs
  simp only [tlTiles, List.mem_map, exists_exists_and_eq_and] at hs
  obtain ⟨b, hb, rfl⟩ := hs
  have : b.1.rank ≤ R := by
    rw [← hR]; exact (le_foldl_max _ 0).2 _ (List.mem_map.2 ⟨b, hb, rfl⟩)
  rw [dim_set _ _ _ _ (by rw [tileAx, ofFn_sh, List.length_set, padT_sh, length_padS _ _ this]; exact hk), if_pos rfl]

theorem set_dim_self (s : Shp) (k d : ℕ) (h : dim s k = d) (hk : k < s.length) : s.set k d = s := by
  apply List.ext_getElem (by simp)
  intro i h1 h2
  rw [List.getElem_set]
  split_ifs with e
  · subst e; subst h
    simp [dim, List.getD_eq_getElem?_getD, List.getElem?_eq_getElem h2]
  · rfl

theorem tlBase_of_sh {R : ℕ} {bs : List (Tensor K × ℕ)} {k : ℕ} (hn : bs ≠ []) (hk : k < R) (hR : (bs.map fun b => b.1.rank).foldl max 0 = R) :
    tlBase R bs k = (tiledL bs k).sh.set k 1 := by
  rw [tiledL_eq hR, ofFn_sh, List.set_set, set_dim_self _ _ _ (dim_tlBase hk hR) (by rw [tlBase_length hn hR]; exact hk)]

theorem dim_tiledL {R : ℕ} {bs : List (Tensor K × ℕ)} {k : ℕ} (hn : bs ≠ []) (hk : k < R) (hR : (bs.map fun b => b.1.rank).foldl max 0 = R) :
    dim (tiledL bs k).sh k = concatDim k (tlTiles R bs k) := by
  rw [tiledL_eq hR, ofFn_sh, dim_set _ _ _ _ (by rw [tlBase_length hn hR]; exact hk), if_pos rfl]

theorem tiledL_rank {R : ℕ} {bs : List (Tensor K × ℕ)} {k : ℕ} (hn : bs ≠ []) (hR : (bs.map fun b => b.1.rank).foldl max 0 = R) :
    (tiledL bs k).rank = R := by
  rw [Tensor.rank, tiledL_eq hR, ofFn_sh, List.length_set, tlBase_length hn hR]

/-- The blocks of several TiledBlocks, put together, are the concatenation. -/
theorem tiledL_flatten {tls : List (List (Tensor K × ℕ))} {k R : ℕ} {s : Shp} (h0 : tls ≠ []) (hn : ∀ tl ∈ tls, tl ≠ []) (hk : k < R)
    (hR : ∀ tl ∈ tls, (tl.map fun b => b.1.rank).foldl max 0 = R) (hs : ∀ tl ∈ tls, (tiledL tl k).sh.set k 0 = s) :
    (tls.flatten.map fun b => b.1.rank).foldl max 0 = R ∧ IsConcat k (tls.map fun tl => tiledL tl k) (tiledL tls.flatten k) := by
  have hR' : (tls.flatten.map fun b => b.1.rank).foldl max 0 = R := by
    rw [List.map_flatten]
    refine foldl_max_flatten (by simpa using h0) fun l hl => ?_
    obtain ⟨tl, htl, rfl⟩ := List.mem_map.1 hl
    exact hR tl htl
  have hti : tlTiles R tls.flatten k = (tls.map fun tl => tlTiles R tl k).flatten := by
    rw [tlTiles, List.map_flatten]; rfl
  have hba : tlBase R tls.flatten k = s.set k 1 := by
    rw [tlBase, hti, List.map_flatten, foldr_bsh_flatten]
    refine foldr_bsh_const (by simpa using h0) fun t ht => ?_
    simp only [List.map_map, List.mem_map, Function.comp_apply] at ht
    obtain ⟨tl, htl, rfl⟩ := ht
    rw [show ((tlTiles R tl k).map fun t => t.sh.set k 1).foldr bsh [] = tlBase R tl k from rfl, tlBase_of_sh (hn tl htl) hk (hR tl htl), ← hs tl htl, List.set_set]
  have hd : ((tls.map fun tl => tiledL tl k).map fun t => dim t.sh k) = (tls.map fun tl => tlTiles R tl k).map (concatDim k) := by
    rw [List.map_map, List.map_map]
    refine List.map_congr_left fun tl htl => ?_
    exact dim_tiledL (hn tl htl) hk (hR tl htl)
  refine ⟨hR', IsConcat.of_get (fun t ht => ?_) (fun t ht => ?_) (concatGet k (tlTiles R tls.flatten k)) (fun i hi => ?_) fun p t hp i hi => ?_⟩
  · obtain ⟨tl, htl, rfl⟩ := List.mem_map.1 ht
    rw [tiledL_rank (hn tl htl) (hR tl htl)]; exact hk
  · obtain ⟨tl, htl, rfl⟩ := List.mem_map.1 ht
    rw [hd, tiledL_eq hR', ofFn_sh, hba, hti, concatDim_flatten, ← hs tl htl]
    simp only [List.set_set]
  · rw [tiledL_eq hR'] at hi ⊢
    exact ofFn_get _ hi
  · rw [List.getElem?_map, Option.map_eq_some_iff] at hp
    obtain ⟨tl, htl, rfl⟩ := hp
    have hm := List.mem_of_getElem? htl
    have hi0 := hi
    rw [tiledL_eq (hR tl hm)] at hi ⊢
    rw [ofFn_sh] at hi
    rw [ofFn_get _ hi, ← List.map_take, List.map_map, hti]
    have := concatGet_flatten k (tls.map fun tl => tlTiles R tl k) p (tlTiles R tl k) (by rw [List.getElem?_map, htl]; rfl) i
      (by rw [← dim_tiledL (hn tl hm) hk (hR tl hm)]; exact hi0 k)
    rw [← this]
    congr 4
    rw [← List.map_take, List.map_map]
    refine List.map_congr_left fun tl htl => ?_
    have hm := List.mem_of_mem_take htl
    exact dim_tiledL (hn tl hm) hk (hR tl hm)

theorem mapM_some {α β : Type} {f : α → Option β} {l : List α} {r : List β} (h : l.mapM f = some r) : List.Forall₂ (fun a b => f a = some b) l r := by
  induction l generalizing r with
  | nil => simp at h; subst h; exact .nil
  | cons a l ih =>
    simp only [List.mapM_cons, Option.bind_eq_bind, Option.bind_eq_some_iff, Option.pure_def, Option.some.injEq] at h
    obtain ⟨b, hb, bs, hbs, rfl⟩ := h
    exact .cons hb (ih hbs)

theorem mapM_ok {α β : Type} {f : α → E β} {l : List α} {r : List β} (h : l.mapM f = .ok r) : List.Forall₂ (fun a b => f a = .ok b) l r := by
  induction l generalizing r with
  | nil => simp [pure_eq_ok] at h; subst h; exact .nil
  | cons a l ih =>
    simp only [List.mapM_cons, bind_ok_iff, pure_eq_ok] at h
    obtain ⟨b, hb, bs, hbs, rfl⟩ := h
    exact .cons hb (ih hbs)

theorem tiledParts_some {axis : Int} {a : Mat K} {bs : List (Mat K × ℕ)} (h : tiledParts axis a = some bs) :
    ∃ n blk reps, a = .tiled n blk reps axis ∧ bs = List.ofFn fun i => (blk i, reps i) := by
  cases a <;> simp only [tiledParts, reduceCtorEq] at h
  split_ifs at h with e
  simp only [Option.some.injEq] at h
  subst e
  exact ⟨_, _, _, rfl, h.symm⟩

/-- What a TiledBlocks consists of. -/
theorem tiled_facts {S : Shp} {n : ℕ} {blk : Fin n → Mat K} {reps : Fin n → ℕ} {axis : Int} {k : ℕ} (hw : Mat.WF S (.tiled n blk reps axis))
    (hk0 : axPos (den (.tiled n blk reps axis)).rank axis = .ok k) :
    n ≠ 0 ∧ ((List.ofFn fun i => (den (blk i)).rank).foldl max 0 = (den (.tiled n blk reps axis)).rank) ∧
    den (.tiled n blk reps axis) = tiledL (List.ofFn fun i => (den (blk i), reps i)) k ∧
    (∀ i, 2 ≤ (den (blk i)).rank) ∧ (∀ i, (blk i).WF (if k < 2 then S else setDim S (k-2) (dim (den (blk i)).sh k))) ∧
    ∀ i p, p < 2 → p ≠ k → dim (den (blk i)).sh p = dim (den (.tiled n blk reps axis)).sh p := by
  obtain ⟨k', hk, hn, h2, hwf, hr, hc, hS⟩ := hw
  have hU := tiled_univ hn (fun i => (hwf i).fits) hr hc
  have hk' : axPos (maxRank fun i => den (blk i)) axis = .ok k' := hk
  have hkl := axPos_lt hk'
  have hden : den (.tiled n blk reps axis) = tiledT (fun i => den (blk i)) reps k' := by
    rw [den, tiledPos_eq hk']
  have hrank := tiledT_rank (fun i => den (blk i)) reps hn k'
  have ek : k' = k := by
    rw [hden, hrank, hk'] at hk0; simpa using hk0
  subst ek
  obtain ⟨hb1, hb2⟩ := fits_tiledBase (fun i => den (blk i)) reps hkl hU
  refine ⟨hn, by rw [hden, hrank]; rfl, by rw [hden, tiledT_eq_tiledL], h2, hwf, fun i p hp2 hp => ?_⟩
  rw [hden, dim_tiledT _ _ hn hkl, if_neg hp]
  have a1 := hb1 p
  have a2 := hb2 i p
  rw [dim_set _ _ _ _ (by rw [tileOf_length]; exact hkl), if_neg hp, dim_tileOf (fun i => den (blk i)) reps hkl, if_neg hp] at a2
  have a3 : dim (tiledUniv S fun i => den (blk i)) p = dim (den (blk i)).sh p := by
    rw [tiledUniv, dif_neg hn]
    rcases p with _ | _ | p
    · simpa using (hc i _ (Ne.symm hp)).symm
    · simpa using (hr i _ (Ne.symm hp)).symm
    · omega
  omega

theorem setDim_set (s : Shp) (p d e : ℕ) (h : p < s.length) : setDim (s.set p e) p d = setDim s p d := by
  have : padS (p + 1) (s.set p e) = (padS (p + 1) s).set p e := by
    rw [padS, padS, List.set_append_left _ _ h, List.length_set]
  rw [setDim, setDim, this, List.set_set]

/-- Concatenating TiledBlocks. -/
theorem concatTiled_ok {as : List (Mat K)} {bs : List (List (Mat K × ℕ))} {axis : Int} {k : ℕ} {s : Shp} {r : Mat K} (h0 : as ≠ []) (hv : ∀ a ∈ as, a.Valid)
    (hk : ∀ a ∈ as, axPos (den a).rank axis = .ok k) (hs : ∀ a ∈ as, (den a).sh.set k 0 = s) (hb : List.Forall₂ (fun a b => tiledParts axis a = some b) as bs)
    (h : mkTiledL bs.flatten axis = .ok r) : r.Valid ∧ IsConcat k (as.map den) (den r) := by
  obtain rfl : r = .tiled bs.flatten.length (fun i => (bs.flatten.get i).1) (fun i => (bs.flatten.get i).2) axis := by
    simp only [mkTiledL, mkTiled, bind_ok_iff, guardE_ok, pure_eq_ok] at h
    obtain ⟨_, _, _, _, rfl⟩ := h; rfl
  have hsl : ∀ a ∈ as, (den a).rank = s.length := fun a ha => by rw [← hs a ha, List.length_set, Tensor.rank]
  set R := s.length with hR
  have hkR : k < R := by
    obtain ⟨a, ha⟩ := List.exists_mem_of_ne_nil as h0
    rw [← hsl a ha]; exact axPos_lt (hk a ha)
  -- every operand
  have each : ∀ p ∈ as.zip bs, (p.2 ≠ []) ∧ ((p.2.map fun b => (den b.1).rank).foldl max 0 = R) ∧ (den p.1 = tiledL (p.2.map fun b => (den b.1, b.2)) k) ∧
      ∀ b ∈ p.2, 2 ≤ (den b.1).rank ∧ b.1.WF (if k < 2 then (den p.1).bt else setDim (den p.1).bt (k-2) (dim (den b.1).sh k)) ∧
        ∀ q, q < 2 → q ≠ k → dim (den b.1).sh q = dim s q := by
    rintro ⟨a, b⟩ hp
    have hab := List.forall₂_iff_zip.1 hb
    obtain ⟨n, blk, reps, rfl, rfl⟩ := tiledParts_some (hab.2 hp)
    have ha := (List.of_mem_zip hp).1
    obtain ⟨f1, f2, f3, f4, f5, f6⟩ := tiled_facts (hv _ ha).own (hk _ ha)
    refine ⟨by intro e; have := congrArg List.length e; simp at this; exact f1 this, ?_, ?_, ?_⟩
    · rw [List.map_ofFn]; rw [hsl _ ha] at f2; exact f2
    · rw [List.map_ofFn]; exact f3
    · intro b hb
      obtain ⟨i, rfl⟩ := (List.mem_ofFn' _ _).1 hb
      refine ⟨f4 i, f5 i, fun q hq hqk => ?_⟩
      rw [f6 i q hq hqk, ← hs _ ha, dim_set _ _ _ _ (by rw [← Tensor.rank, hsl _ ha]; exact hkR), if_neg hqk]
  have hlen : as.length = bs.length := hb.length_eq
  have hbz : ∀ b ∈ bs, ∃ a ∈ as, (a, b) ∈ as.zip bs := by
    intro b hb'
    obtain ⟨j, hj, rfl⟩ := List.getElem_of_mem hb'
    refine ⟨as[j]'(by omega), List.getElem_mem _, ?_⟩
    rw [List.mem_iff_getElem]
    exact ⟨j, by simp; omega, by simp⟩
  have hmap : as.map den = bs.map fun b => tiledL (b.map fun b => (den b.1, b.2)) k := by
    have h1 : as = (as.zip bs).map Prod.fst := (List.map_fst_zip (by omega)).symm
    have h2 : bs = (as.zip bs).map Prod.snd := (List.map_snd_zip (by omega)).symm
    calc as.map den = ((as.zip bs).map Prod.fst).map den := by rw [← h1]
      _ = (as.zip bs).map fun p => tiledL (p.2.map fun b => (den b.1, b.2)) k := by
        rw [List.map_map]; exact List.map_congr_left fun p hp => (each p hp).2.2.1
      _ = ((as.zip bs).map Prod.snd).map fun b => tiledL (b.map fun b => (den b.1, b.2)) k := by rw [List.map_map]; rfl
      _ = _ := by rw [← h2]
  have hb0 : bs ≠ [] := by
    intro e; rw [e] at hlen; exact h0 (List.length_eq_zero_iff.1 hlen)
  obtain ⟨g1, g2⟩ := tiledL_flatten (tls := bs.map fun b => b.map fun b => (den b.1, b.2)) (k := k) (R := R) (s := s) (by simpa using hb0)
    (by
      intro tl htl
      obtain ⟨b, hb', rfl⟩ := List.mem_map.1 htl
      obtain ⟨a, _, hz⟩ := hbz b hb'
      simpa using (each _ hz).1) hkR
    (by
      intro tl htl
      obtain ⟨b, hb', rfl⟩ := List.mem_map.1 htl
      obtain ⟨a, _, hz⟩ := hbz b hb'
      rw [List.map_map]
      exact (each _ hz).2.1)
    (by
      intro tl htl
      obtain ⟨b, hb', rfl⟩ := List.mem_map.1 htl
      obtain ⟨a, ha, hz⟩ := hbz b hb'
      rw [← (each _ hz).2.2.1, hs a ha])
  rw [← List.map_flatten, List.map_map] at g1
  rw [← List.map_flatten, List.map_map, show ((fun tl => tiledL tl k) ∘ fun b => List.map (fun b : Mat K × ℕ => (den b.1, b.2)) b) =
    fun b => tiledL (b.map fun b => (den b.1, b.2)) k from rfl, ← hmap] at g2
  have g1' : ((bs.flatten.map fun b => (den b.1).rank).foldl max 0) = R := g1
  have hkR' : axPos R axis = .ok k := by
    obtain ⟨a, ha⟩ := List.exists_mem_of_ne_nil as h0
    rw [← hsl a ha]; exact hk a ha
  have hden := tiledL_of (bs := bs.flatten) (axis := axis) (k := k) (by rw [g1']; exact hkR')
  rw [← hden] at g2
  refine ⟨⟨_, k, ?_, ?_, ?_, ?_, ?_, ?_, Fits.refl _⟩, g2⟩
  all_goals
    have get : ∀ i : Fin bs.flatten.length, ∃ a ∈ as, 2 ≤ (den (bs.flatten.get i).1).rank ∧
        (bs.flatten.get i).1.WF (if k < 2 then (den a).bt else setDim (den a).bt (k-2) (dim (den (bs.flatten.get i).1).sh k)) ∧
        ∀ q, q < 2 → q ≠ k → dim (den (bs.flatten.get i).1).sh q = dim s q := by
      intro i
      obtain ⟨b, hb', hi⟩ := List.mem_flatten.1 (List.get_mem bs.flatten i)
      obtain ⟨a, ha, hz⟩ := hbz b hb'
      exact ⟨a, ha, (each _ hz).2.2.2 _ hi⟩
  · have : (List.ofFn fun i => (den (bs.flatten.get i).1).rank) = bs.flatten.map fun b => (den b.1).rank := by
      rw [show (fun i => (den (bs.flatten.get i).1).rank) = (fun b : Mat K × ℕ => (den b.1).rank) ∘ bs.flatten.get from rfl, ← List.map_ofFn, List.ofFn_get]
    rw [this, g1', hkR']
  · intro e
    obtain ⟨b, hb'⟩ := List.exists_mem_of_ne_nil bs hb0
    obtain ⟨a, ha, hz⟩ := hbz b hb'
    have := (each _ hz).1
    have e' := List.length_eq_zero_iff.1 e
    rw [List.flatten_eq_nil_iff] at e'
    exact this (e' _ hb')
  · intro i; exact (get i).choose_spec.2.1
  · intro i
    obtain ⟨a, ha, _, w, _⟩ := get i
    have hsh := g2.shape _ (List.mem_map.2 ⟨a, ha, rfl⟩)
    by_cases hk2 : k < 2
    · rw [if_pos hk2] at w ⊢
      have : (den (.tiled bs.flatten.length (fun i => (bs.flatten.get i).1) (fun i => (bs.flatten.get i).2) axis)).bt = (den a).bt := by
        show List.drop 2 _ = List.drop 2 _
        rw [hsh, List.drop_set, if_pos hk2]
      rw [this]; exact w
    · rw [if_neg hk2] at w ⊢
      have : (den (.tiled bs.flatten.length (fun i => (bs.flatten.get i).1) (fun i => (bs.flatten.get i).2) axis)).bt =
          (den a).bt.set (k - 2) ((as.map den).map fun t => dim t.sh k).sum := by
        show List.drop 2 _ = List.set (List.drop 2 _) _ _
        rw [hsh, List.drop_set, if_neg hk2]
      rw [this, setDim_set]
      · exact w
      · have := hsl a ha
        show _ < (List.drop 2 _).length
        rw [List.length_drop]
        change (den a).sh.length = R at this
        omega
  · intro i j h1
    obtain ⟨_, _, _, _, d1⟩ := get i
    obtain ⟨_, _, _, _, d2⟩ := get j
    exact (d1 1 (by omega) (Ne.symm h1)).trans (d2 1 (by omega) (Ne.symm h1)).symm
  · intro i j h1
    obtain ⟨_, _, _, _, d1⟩ := get i
    obtain ⟨_, _, _, _, d2⟩ := get j
    exact (d1 0 (by omega) (Ne.symm h1)).trans (d2 0 (by omega) (Ne.symm h1)).symm

/-- Two shapes agree except along the axis at position `k`. -/
def AgreeExcept (k : ℕ) (s t : Shp) : Prop := s.length = t.length ∧ ∀ q, q ≠ k → dim s q = dim t q

theorem AgreeExcept.set_eq {k : ℕ} {s t : Shp} (h : AgreeExcept k s t) (hk : k < s.length) : s.set k 0 = t.set k 0 := by
  obtain ⟨hl, hd⟩ := h
  apply List.ext_getElem (by simpa using hl)
  intro i h1 h2
  rw [List.getElem_set, List.getElem_set]
  split_ifs with e
  · rfl
  · have := hd i (Ne.symm e)
    simp only [List.length_set] at h1 h2
    simpa [dim, List.getD_eq_getElem?_getD, List.getElem?_eq_getElem h1, List.getElem?_eq_getElem h2] using this

theorem concatM_ok {B : Ops K} (hB : B.Ok) {as : List (Mat K)} {axis : Int} {k : ℕ} {r : Mat K} (hv : ∀ a ∈ as, a.Valid) (h2 : ∀ a ∈ as, 2 ≤ (den a).rank)
    (hk : ∀ a ∈ as, axPos (den a).rank axis = .ok k) (hs : ∀ a ∈ as, ∀ b ∈ as, AgreeExcept k (den a).sh (den b).sh)
    (h : concatM B as axis = .ok r) : r.Valid ∧ IsConcat k (as.map den) (den r) := by
  have hfin : ∀ {t : Tensor K}, nConcat axis (as.map den) = .ok t → 2 ≤ t.rank ∧ IsConcat k (as.map den) t := by
    intro t ht
    obtain ⟨k', hk', h0, hc⟩ := nConcat_isConcat ht
    obtain ⟨t', ht'⟩ := List.exists_mem_of_ne_nil _ h0
    obtain ⟨a, ha, rfl⟩ := List.mem_map.1 ht'
    have ek : k' = k := by have := hk' _ ht'; rw [hk a ha] at this; simpa using this.symm
    subst ek
    have := h2 a ha
    rw [Tensor.rank, hc.shape _ ht', List.length_set]
    exact ⟨this, hc⟩
  unfold concatM at h
  split_ifs at h with h1 h3
  · simp only [bind_ok_iff, pure_eq_ok] at h
    obtain ⟨t, ht, rfl⟩ := h
    obtain ⟨g, hc⟩ := hfin ht
    exact ⟨⟨_, by show t.rank ≠ 1; omega, Fits.refl _⟩, hc⟩
  · split at h
    · rename_i bs hbs
      have h0 : as ≠ [] := by rintro rfl; simp at h1
      obtain ⟨a, ha⟩ := List.exists_mem_of_ne_nil as h0
      exact concatTiled_ok (s := (den a).sh.set k 0) h0 hv hk (fun b hb => (hs b hb a ha).set_eq (axPos_lt (hk b hb))) (mapM_some hbs) h
    · simp only [bind_ok_iff, pure_eq_ok] at h
      obtain ⟨ds, hds, t, ht, rfl⟩ := h
      have e : ds = as.map den := by
        have := mapM_ok hds
        rename_i hnone
        clear hds ht hfin h1 h3 hnone
        induction this with
        | nil => rfl
        | cons h _ ih =>
          rw [ih (fun a ha => hv a (by simp [ha])) (fun a ha => h2 a (by simp [ha])) (fun a ha => hk a (by simp [ha])) fun a ha b hb => hs a (by simp [ha]) b (by simp [hb])]
          rw [hB.dense (hv _ (by simp)).own h]
          rfl
      rw [e] at ht
      obtain ⟨g, hc⟩ := hfin ht
      obtain ⟨w, e⟩ := mkDense_wf (S := t.bt) ⟨g, Fits.refl _⟩
      rw [e]
      exact ⟨⟨_, w⟩, hc⟩

theorem Below.mapM {α β : Type} {bad : Err → Prop} {f g : α → E β} (l : List α) (h : ∀ a, Below bad (f a) (g a)) : Below bad (l.mapM f) (l.mapM g) := by
  induction l with
  | nil => exact .refl _
  | cons a l ih =>
    rw [List.mapM_cons, List.mapM_cons]
    exact (h a).bind fun _ => ih.bind fun _ => .refl _

theorem Calls.concat (as : List (Mat K)) (axis : Int) : Calls fun B : Ops K => concatM B as axis := by
  intro bad B C h
  show Below bad (concatM B as axis) (concatM C as axis)
  unfold concatM
  split_ifs
  · exact .refl _
  · exact .refl _
  · cases as.mapM (tiledParts axis) with
    | some bs => exact .refl _
    | none => exact (Below.mapM as fun a => h.dense a).bind fun _ => .refl _

/-! ### C17 -/

/-- C17.  `B.concat(*as, axis)` puts the matrices one after the other along the axis.
(The shapes must agree except along the axis.) -/
theorem C17_concat (c : Cfg K) {as : List (Mat K)} {axis : Int} {k : ℕ} {r : Mat K} (hv : ∀ a ∈ as, a.Valid) (h2 : ∀ a ∈ as, 2 ≤ (den a).rank)
    (hk : ∀ a ∈ as, AxisAt (den a).rank axis k) (hs : ∀ a ∈ as, ∀ b ∈ as, AgreeExcept k (den a).sh (den b).sh)
    (hr : Returns c (fun B => concatM B as axis) r) (hx : Exact c fun B => concatM B as axis) : r.Valid ∧ IsConcat k (as.map den) (den r) := by
  obtain ⟨n, h⟩ := hr.strict hx
  exact concatM_ok (c.ok n) hv h2 (fun a ha => axPos_iff.2 (hk a ha)) hs h

/-- C17.  Concatenating TiledBlocks along their axis gives the TiledBlocks of all the blocks: nothing is made dense. -/
theorem C17_concat_tiled (c : Cfg K) {as : List (Mat K)} {bs : List (List (Mat K × ℕ))} {axis : Int} (h0 : as ≠ []) (hv : ∀ a ∈ as, a.Valid)
    (ht : List.Forall₂ (fun a b => ∃ n blk reps, a = .tiled n blk reps axis ∧ b = List.ofFn fun i => (blk i, reps i)) as bs) :
    Returns c (fun B => concatM B as axis)
      (.tiled bs.flatten.length (fun i => (bs.flatten.get i).1) (fun i => (bs.flatten.get i).2) axis) := by
  have hm : as.mapM (tiledParts axis) = some bs := by
    clear h0 hv
    induction ht with
    | nil => rfl
    | cons h _ ih =>
      obtain ⟨n, blk, reps, rfl, rfl⟩ := h
      rw [List.mapM_cons, ih]
      simp [tiledParts]
  have ham : ∀ a ∈ as, a.isAM = true := by
    clear h0 hv hm
    induction ht with
    | nil => simp
    | cons h _ ih =>
      obtain ⟨n, blk, reps, rfl, rfl⟩ := h
      intro a ha
      rcases List.mem_cons.1 ha with rfl | ha
      · rfl
      · exact ih a ha
  have hblk : ∀ b ∈ bs.flatten, 2 ≤ (den b.1).rank ∧ ∃ S, b.1.WF S := by
    clear h0 hm ham
    induction ht with
    | nil => simp
    | cons h _ ih =>
      obtain ⟨n, blk, reps, rfl, rfl⟩ := h
      intro b hb
      rw [List.flatten_cons, List.mem_append] at hb
      rcases hb with hb | hb
      · obtain ⟨i, rfl⟩ := (List.mem_ofFn' _ _).1 hb
        obtain ⟨S, k, _, _, w2, w, _⟩ := hv (.tiled n blk reps axis) (by simp)
        exact ⟨w2 i, _, w i⟩
      · exact ih (fun a ha => hv a (by simp [ha])) b hb
  have hne : bs.flatten.length ≠ 0 := by
    obtain ⟨a, l, rfl⟩ := List.exists_cons_of_ne_nil h0
    cases ht with
    | cons h _ =>
      obtain ⟨n, blk, reps, rfl, rfl⟩ := h
      obtain ⟨S, k, _, hn, _⟩ := hv (.tiled n blk reps axis) (List.mem_cons_self ..)
      simp; omega
  refine ⟨0, ?_⟩
  show concatM _ as axis = _
  unfold concatM
  rw [if_neg, if_neg, hm]
  · choose S hS using fun i : Fin bs.flatten.length => (hblk _ (List.get_mem bs.flatten i)).2
    exact mkTiled_ok hne hS fun i => (hblk _ (List.get_mem bs.flatten i)).1
  · simp only [Bool.not_eq_eq_eq_not, Bool.not_true, Bool.not_eq_false, List.all_eq_true]
    exact ham
  · obtain ⟨a, l, rfl⟩ := List.exists_cons_of_ne_nil h0
    simp [ham a (by simp)]

theorem nTile_isTile (t : Tensor K) (reps : List ℕ) : IsTile reps t (nTile t reps) := by
  have hd : ∀ k, dim (nTile t reps).sh k = reps.getD k 1 * dim t.sh k := by
    intro k
    rw [nTile, ofFn_sh, dim, List.getD_eq_getElem?_getD, List.getElem?_map]
    by_cases h : k < max t.rank reps.length
    · rw [List.getElem?_range h]; rfl
    · rw [List.getElem?_eq_none (by simpa using h)]
      have h1 : dim t.sh k = 1 := by
        rw [dim, List.getD_eq_getElem?_getD, List.getElem?_eq_none (by rw [Tensor.rank] at h; omega)]; rfl
      have h2 : reps.getD k 1 = 1 := by
        rw [List.getD_eq_getElem?_getD, List.getElem?_eq_none (by omega)]; rfl
      rw [h1, h2]; rfl
  exact ⟨by simp [nTile, Tensor.rank], hd, fun i hi => by unfold nTile at hi ⊢; exact ofFn_get _ hi⟩

theorem dim_eq_getD (s : Shp) (k : ℕ) : dim s k = s.getD k 1 := rfl

theorem getD_zipWith_mul (s u : List ℕ) (h : s.length = u.length) (k : ℕ) : (List.zipWith (· * ·) s u).getD k 1 = s.getD k 1 * u.getD k 1 := by
  induction s generalizing u k with
  | nil => cases u with
    | nil => simp
    | cons => simp at h
  | cons a s ih => cases u with
    | nil => simp at h
    | cons b u =>
      cases k with
      | zero => simp
      | succ k => simpa using ih u (by simpa using h) k

theorem getD_drop_two (l : List ℕ) (k : ℕ) : (l.drop 2).getD k 1 = l.getD (k + 2) 1 := by
  simp [List.getD_eq_getElem?_getD, Nat.add_comm]

theorem constM_get {t : Tensor K} {r c : ℕ} {i : Idx} (hi : InRange (constM t r c).sh i) : (constM t r c).get i = t.get (itail (itail i)) := by
  have hi' : InRange (c :: r :: t.sh) i := hi
  unfold constM mkMat
  exact ofFn_get _ hi'

/-- Tiling a tensor whose entries do not depend on the row and column. -/
theorem isTile_fill {t t' : Tensor K} {r c : ℕ} {reps : List ℕ} (hl : t.rank + 2 = reps.length) (h : IsTile (reps.drop 2) t t') :
    IsTile reps (constM t r c) (constM t' (r * reps.getD 1 1) (c * reps.getD 0 1)) := by
  have hd : ∀ k, dim (constM t' (r * reps.getD 1 1) (c * reps.getD 0 1)).sh k = reps.getD k 1 * dim (constM t r c).sh k := by
    intro k
    rcases k with _ | _ | k
    · simp [Nat.mul_comm]
    · simp [Nat.mul_comm]
    · simp only [constM_sh, dim_cons_succ]
      rw [h.shape k, getD_drop_two]
  refine ⟨?_, hd, fun i hi => ?_⟩
  · have := h.rank
    simp only [Tensor.rank, constM_sh, List.length_cons, List.length_drop] at this hl ⊢
    omega
  · have hj : InRange (constM t r c).sh fun k => i k % dim (constM t r c).sh k := by
      intro k
      have := hi k
      rw [hd] at this
      exact Nat.mod_lt _ (Nat.pos_of_ne_zero fun e => by rw [e] at this; simp at this)
    rw [constM_get hi, constM_get hj]
    rw [h.entries (itail (itail i)) fun k => hi (k + 2)]
    rfl

theorem fillT_eq_constM (s : Shp) (r c : ℕ) (x : K) : fillT (c :: r :: s) x = constM (fillT s x) r c := by
  refine Tensor.ext_inRange rfl fun i hi => ?_
  rw [fillT_get x (S := c :: r :: s) hi (Fits.refl _), constM_get (t := fillT s x) (r := r) (c := c) hi]
  exact (fillT_get x (S := s) (fun k => hi (k + 2)) (Fits.refl _)).symm

theorem isTile_fillT {bt : Shp} {reps : List ℕ} (x : K) (hl : bt.length = reps.length) : IsTile reps (fillT bt x) (fillT (List.zipWith (· * ·) bt reps) x) := by
  have hd : ∀ k, dim (List.zipWith (· * ·) bt reps) k = reps.getD k 1 * dim bt k := by
    intro k
    rw [dim_eq_getD, dim_eq_getD, getD_zipWith_mul _ _ hl, Nat.mul_comm]
  refine ⟨by simp [Tensor.rank, fillT, hl], hd, fun i hi => ?_⟩
  rw [fillT_get x (S := List.zipWith (· * ·) bt reps) hi (Fits.refl _), fillT_get x (S := bt) (fun k => ?_) (Fits.refl _)]
  have := hi k
  rw [show dim (fillT (List.zipWith (· * ·) bt reps) x).sh k = _ from hd k] at this
  exact Nat.mod_lt _ (Nat.pos_of_ne_zero fun e => by rw [show dim (fillT bt x).sh k = dim bt k from rfl] at e; rw [e] at this; simp at this)

theorem tileM_ok {B : Ops K} (hB : B.Ok) {a r : Mat K} {reps : List ℕ} (ha : a.Valid) (h2 : 2 ≤ (den a).rank)
    (h : tileM B a reps = .ok r) : r.Valid ∧ IsTile reps (den a) (den r) := by
  have dense : ∀ {t : Tensor K}, t = den a → (mkDense (nTile t reps)).Valid ∧ IsTile reps (den a) (den (mkDense (nTile t reps))) := by
    rintro t rfl
    have hi := nTile_isTile (den a) reps
    obtain ⟨w, e⟩ := mkDense_wf (S := (nTile (den a) reps).bt) ⟨by rw [hi.rank]; omega, Fits.refl _⟩
    rw [e]; exact ⟨⟨_, w⟩, hi⟩
  cases a with
  | num t =>
    simp only [tileM, Except.ok.injEq] at h
    subst h
    have hi := nTile_isTile t reps
    refine ⟨⟨_, ?_, Fits.refl _⟩, hi⟩
    have := hi.rank
    change 2 ≤ t.rank at h2
    omega
  | zero bt rr cc =>
    simp only [tileM, bind_ok_iff, guardE_ok, mkZero, Except.ok.injEq] at h
    obtain ⟨_, hl, rfl⟩ := h
    refine ⟨⟨_, Fits.refl _⟩, ?_⟩
    simp only [den]
    rw [fillT_eq_constM, fillT_eq_constM]
    exact isTile_fill hl (isTile_fillT _ (by simp; omega))
  | const t rr cc =>
    simp only [tileM, bind_ok_iff, guardE_ok, mkConst, Except.ok.injEq] at h
    obtain ⟨_, hl, rfl⟩ := h
    exact ⟨⟨_, Fits.refl _⟩, isTile_fill hl (nTile_isTile _ _)⟩
  | _ =>
    simp only [tileM, bind_ok_iff, pure_eq_ok] at h
    obtain ⟨t, ht, rfl⟩ := h
    exact dense (hB.dense ha.own ht)

theorem Calls.tile (a : Mat K) (reps : List ℕ) : Calls fun B : Ops K => tileM B a reps := by
  intro bad B C h
  cases a <;> simp only [tileM] <;> first | exact .refl _ | exact (h.dense _).bind fun _ => .refl _

/-- C17.  `B.tile(a, *reps)` repeats the matrix along every axis. -/
theorem C17_tile (c : Cfg K) {a r : Mat K} {reps : List ℕ} (ha : a.Valid) (h2 : 2 ≤ (den a).rank)
    (hr : Returns c (fun B => tileM B a reps) r) (hx : Exact c fun B => tileM B a reps) : r.Valid ∧ IsTile reps (den a) (den r) := by
  obtain ⟨n, h⟩ := hr.strict hx
  exact tileM_ok (c.ok n) ha h2 h

theorem rowMajor_eq (s : Shp) (i : Idx) : rowMajor s i = lin s i := by
  induction s generalizing i with
  | nil => rfl
  | cons d s ih => rw [rowMajor, lin, ih]

theorem Calls.reshape (a : Mat K) (s : Shp) : Calls fun B : Ops K => reshapeM B a s := by
  intro bad B C h
  exact (h.dense _).bind fun _ => .refl _

/-- C17.  `B.reshape(a, *shape)` has the entries of the matrix in the same row-major order. -/
theorem C17_reshape (c : Cfg K) {a : Mat K} {r : Tensor K} {s : Shp} (ha : a.Valid)
    (hr : Returns c (fun B => reshapeM B a s) r) (hx : Exact c fun B => reshapeM B a s) : IsReshape s (den a) r := by
  obtain ⟨n, h⟩ := hr.strict hx
  simp only [reshapeM, bind_ok_iff] at h
  obtain ⟨t, ht, h⟩ := h
  obtain rfl := (c.ok n).dense ha.own ht
  unfold nReshape at h
  split_ifs at h with hs
  simp only [Except.ok.injEq] at h
  subst h
  refine ⟨rfl, hs, fun i j hi hj e => ?_⟩
  unfold reshapeT
  rw [ofFn_get _ hi, ← get_unlin_lin _ hj, ← rowMajor_eq, ← rowMajor_eq, e]

/-- C17.  Reshaping to a shape with another number of entries raises ValueError. -/
theorem C17_reshape_rejected (c : Cfg K) {a : Mat K} {s : Shp} {t : Tensor K} (ha : a.Valid) (hd : Returns c (fun B => B.dense a) t)
    (hx : Exact c fun B => B.dense a) (hs : size s ≠ size (den a).sh) : Raises c (fun B => reshapeM B a s) .value := by
  obtain ⟨n, h⟩ := hd.strict hx
  obtain rfl := (c.ok n).dense ha.own h
  refine ⟨by decide, n, ?_⟩
  have : (ops c.code n).dense a = .ok (den a) := (hx n).symm.trans h
  show (ops c.code n).dense a >>= _ = _
  rw [this]
  show nReshape s (den a) = _
  rw [nReshape, if_neg hs]

/-- C17.  Tiling a Zero or Constant matrix with a number of repetitions other than its rank raises ValueError. -/
theorem C17_tile_rejected (c : Cfg K) {a : Mat K} {reps : List ℕ} (hk : (∃ bt r c, a = .zero bt r c) ∨ ∃ t r c, a = .const t r c)
    (hl : (den a).rank ≠ reps.length) : Raises c (fun B => tileM B a reps) .value := by
  refine ⟨by decide, 0, ?_⟩
  rcases hk with ⟨bt, r, c', rfl⟩ | ⟨t, r, c', rfl⟩
  · have : ¬ bt.length + 2 = reps.length := hl
    simp only [tileM, guardE, if_neg this]; rfl
  · have : ¬ t.rank + 2 = reps.length := hl
    simp only [tileM, guardE, if_neg this]; rfl

/-- The hypotheses are met: two TiledBlocks along the axis −2; a LowerTriangular and a Woodbury matrix along the columns. -/
example : ∃ r, Returns Ex.cfg (fun B => concatM B [Ex.T, Ex.T] (-2)) r ∧ Exact Ex.cfg fun B => concatM B [Ex.T, Ex.T] (-2) :=
  Ex.meets (Calls.concat _ _) (n := 8) (by decide +kernel)
example : (∀ a ∈ [Ex.L, Ex.W], a.Valid) ∧ (∀ a ∈ [Ex.L, Ex.W], AxisAt (den a).rank (-1) 0) ∧
    (∀ a ∈ [Ex.L, Ex.W], ∀ b ∈ [Ex.L, Ex.W], AgreeExcept 0 (den a).sh (den b).sh) ∧
    ∃ r, Returns Ex.cfg (fun B => concatM B [Ex.L, Ex.W] (-1)) r ∧ Exact Ex.cfg fun B => concatM B [Ex.L, Ex.W] (-1) := by
  refine ⟨?_, ?_, ?_, Ex.meets (Calls.concat _ _) (n := 8) (by decide +kernel)⟩
  · simp only [List.mem_cons, List.not_mem_nil, or_false, forall_eq_or_imp, forall_eq]
    exact ⟨⟨[], Ex.L_wf _⟩, ⟨[], Ex.W_wf _⟩⟩
  · simp only [List.mem_cons, List.not_mem_nil, or_false, forall_eq_or_imp, forall_eq, AxisAt]
    decide
  · have : ∀ a ∈ [Ex.L, Ex.W], (den a).sh = [2, 2] := by
      simp only [List.mem_cons, List.not_mem_nil, or_false, forall_eq_or_imp, forall_eq]; decide
    intro a ha b hb
    rw [this a ha, this b hb]
    exact ⟨rfl, fun _ _ => rfl⟩
example : Ex.C.Valid ∧ ∃ r, Returns Ex.cfg (fun B => tileM B Ex.C [2, 3]) r ∧ Exact Ex.cfg fun B => tileM B Ex.C [2, 3] :=
  ⟨⟨[], Ex.C_wf _⟩, Ex.meets (Calls.tile _ _) (n := 8) (by decide +kernel)⟩
example : ∃ r, Returns Ex.cfg (fun B => reshapeM B Ex.W [4]) r ∧ Exact Ex.cfg fun B => reshapeM B Ex.W [4] :=
  Ex.meets (Calls.reshape _ _) (n := 8) (by decide +kernel)

end Verif
