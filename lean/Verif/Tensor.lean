/-
The numeric backend (numpy / LAB `B`): batched tensors over an exact field.

A tensor is a shape and a function of the index.  Shapes and indices are stored
LAST AXIS FIRST: position `0` is Python's axis `-1`, position `1` is axis `-2`,
and the batch shape is `drop 2`.  Axes beyond the rank behave as axes of size 1,
which is numpy's broadcasting rule.
-/
import Mathlib.Algebra.BigOperators.Ring.Finset
import Mathlib.Algebra.BigOperators.Intervals
import Mathlib.Algebra.Order.Field.Basic
import Mathlib.Algebra.Order.Ring.Rat
import Mathlib.Tactic.Ring
import Mathlib.Tactic.Linarith

namespace Verif

/-- A shape, last axis first. -/
abbrev Shp := List ℕ

/-- An index, last axis first. -/
abbrev Idx := ℕ → ℕ

/-- Size of the `k`-th axis from the end; axes beyond the rank have size 1 (numpy broadcasting). -/
def dim (s : Shp) (k : ℕ) : ℕ := s.getD k 1

@[simp] theorem dim_nil (k) : dim [] k = 1 := by simp [dim]
@[simp] theorem dim_cons_zero (d s) : dim (d :: s) 0 = d := by simp [dim]
@[simp] theorem dim_cons_succ (d s k) : dim (d :: s) (k+1) = dim s k := by simp [dim]
@[simp] theorem dim_cons_one (d e s) : dim (d :: e :: s) 1 = e := by simp [dim]
theorem dim_drop (s : Shp) (n k) : dim (s.drop n) k = dim s (n + k) := by
  simp [dim, List.getD_eq_getElem?_getD]
theorem dim_tail (s : Shp) (k) : dim s.tail k = dim s (k+1) := by
  cases s <;> simp

/-- `i` is a legal index of shape `s` (and is `0` beyond its rank). -/
def InRange (s : Shp) (i : Idx) : Prop := ∀ k, i k < dim s k

/-- Read an index through numpy broadcasting: an axis of size 1 is read at 0. -/
def clip (s : Shp) (i : Idx) : Idx := fun k => if i k < dim s k then i k else 0

theorem zero_notMem_iff (s : Shp) : 0 ∉ s ↔ ∀ k, 0 < dim s k := by
  induction s with
  | nil => simp
  | cons d s ih =>
    simp only [List.mem_cons, not_or, ih]
    constructor
    · rintro ⟨h0, h⟩ k
      cases k with
      | zero => simp; omega
      | succ k => simpa using h k
    · intro h
      refine ⟨?_, fun k => by simpa using h (k+1)⟩
      have := h 0; simp at this; omega

theorem InRange.pos {s : Shp} {i : Idx} (h : InRange s i) : 0 ∉ s :=
  (zero_notMem_iff s).2 fun k => Nat.lt_of_le_of_lt (Nat.zero_le _) (h k)

theorem inRange_clip {s : Shp} (i : Idx) (h : 0 ∉ s) : InRange s (clip s i) := by
  intro k
  have := (zero_notMem_iff s).1 h k
  unfold clip; split <;> omega

theorem clip_of_inRange {s : Shp} {i : Idx} (h : InRange s i) : clip s i = i := by
  funext k; simp [clip, h k]

@[simp] theorem clip_clip (s : Shp) (i : Idx) : clip s (clip s i) = clip s i := by
  funext k; simp only [clip]; split_ifs <;> omega

/-- `s` broadcasts to `S`: every axis of `s` is 1 or that of `S`. -/
def Fits (S s : Shp) : Prop := ∀ k, dim s k = 1 ∨ dim s k = dim S k

theorem Fits.refl (s : Shp) : Fits s s := fun _ => Or.inr rfl
theorem Fits.nil (S : Shp) : Fits S [] := fun _ => Or.inl (by simp)
theorem Fits.trans {S T s : Shp} (h : Fits S T) (h' : Fits T s) : Fits S s := by
  intro k; rcases h' k with h1 | h1
  · exact Or.inl h1
  · rcases h k with h2 | h2
    · left; omega
    · right; omega

@[simp] theorem fits_cons {D d : ℕ} {S s : Shp} :
    Fits (D :: S) (d :: s) ↔ (d = 1 ∨ d = D) ∧ Fits S s := by
  constructor
  · intro h; exact ⟨by simpa using h 0, fun k => by simpa using h (k+1)⟩
  · rintro ⟨h0, h⟩ k
    cases k with
    | zero => simpa using h0
    | succ k => simpa using h k

theorem Fits.drop {S s : Shp} (h : Fits S s) (n) : Fits (S.drop n) (s.drop n) := by
  intro k; simpa [dim_drop] using h (n+k)
theorem Fits.tail {S s : Shp} (h : Fits S s) : Fits S.tail s.tail := by
  intro k; simpa [dim_tail] using h (k+1)

theorem clip_clip_of_fits {S s : Shp} (h : Fits S s) (i : Idx) : clip s (clip S i) = clip s i := by
  funext k; simp only [clip]
  rcases h k with h | h <;> rw [h] <;> split_ifs <;> omega

theorem Fits.pos {S s : Shp} (h : Fits S s) (hS : 0 ∉ S) : 0 ∉ s := by
  rw [zero_notMem_iff] at *
  intro k; rcases h k with h | h <;> rw [h]
  · omega
  · exact hS k

/-! ### Broadcasting of shapes (total version; conflicts resolve to `max`) -/

/-- The broadcast of two dimensions, `matrix/shape.py` 115-119.  Total: on incompatible dimensions it
returns the larger one, so that it is commutative and associative everywhere. -/
def bd (d e : ℕ) : ℕ := if d = 1 then e else if e = 1 then d else max d e

theorem bd_comm (d e) : bd d e = bd e d := by unfold bd; split_ifs <;> omega
theorem bd_assoc (d e f) : bd (bd d e) f = bd d (bd e f) := by unfold bd; split_ifs <;> omega
@[simp] theorem bd_self (d) : bd d d = d := by unfold bd; split_ifs <;> omega
@[simp] theorem bd_one_left (d) : bd 1 d = d := by simp [bd]
@[simp] theorem bd_one_right (d) : bd d 1 = d := by unfold bd; split_ifs <;> omega

/-- Broadcast of two shapes (total). -/
def bsh : Shp → Shp → Shp
  | [], t => t
  | s, [] => s
  | d :: s, e :: t => bd d e :: bsh s t

@[simp] theorem bsh_nil_left (t) : bsh [] t = t := by cases t <;> rfl
@[simp] theorem bsh_nil_right (t) : bsh t [] = t := by cases t <;> rfl
@[simp] theorem bsh_cons (d e s t) : bsh (d :: s) (e :: t) = bd d e :: bsh s t := rfl
@[simp] theorem bsh_self (s) : bsh s s = s := by induction s <;> simp [*]
theorem bsh_comm (s t) : bsh s t = bsh t s := by
  induction s generalizing t with
  | nil => simp
  | cons d s ih => cases t <;> simp [bd_comm, ih _]
theorem bsh_assoc (s t u) : bsh (bsh s t) u = bsh s (bsh t u) := by
  induction s generalizing t u with
  | nil => simp
  | cons d s ih => cases t <;> cases u <;> simp [bd_assoc, ih]
theorem bsh_left_comm (s t u) : bsh s (bsh t u) = bsh t (bsh s u) := by
  rw [← bsh_assoc, bsh_comm s t, bsh_assoc]
theorem bsh_idem_left (s t) : bsh s (bsh s t) = bsh s t := by rw [← bsh_assoc, bsh_self]

instance : Std.Associative bsh := ⟨bsh_assoc⟩
instance : Std.Commutative bsh := ⟨bsh_comm⟩
instance : Std.IdempotentOp bsh := ⟨bsh_self⟩

@[simp] theorem dim_bsh (s t k) : dim (bsh s t) k = bd (dim s k) (dim t k) := by
  induction s generalizing t k with
  | nil => simp
  | cons d s ih => cases t <;> cases k <;> simp [ih]

theorem drop_bsh (s t : Shp) (n) : (bsh s t).drop n = bsh (s.drop n) (t.drop n) := by
  induction n generalizing s t with
  | zero => simp
  | succ n ih => cases s <;> cases t <;> simp [ih]

theorem length_bsh (s t : Shp) : (bsh s t).length = max s.length t.length := by
  induction s generalizing t with
  | nil => simp
  | cons d s ih => cases t <;> simp [ih]

/-- numpy's compatibility of shapes: aligned at the last axis, equal or one of them is 1. -/
def Compat (s t : Shp) : Prop := ∀ k, dim s k = 1 ∨ dim t k = 1 ∨ dim s k = dim t k

/-- Boolean version of `Compat`. -/
def compatB : Shp → Shp → Bool
  | [], _ => true
  | _, [] => true
  | d :: s, e :: t => (d == 1 || e == 1 || d == e) && compatB s t

theorem compatB_iff (s t : Shp) : compatB s t = true ↔ Compat s t := by
  induction s generalizing t with
  | nil => simp [compatB, Compat]
  | cons d s ih =>
    cases t with
    | nil => simp [compatB, Compat]
    | cons e t =>
      simp only [compatB, Bool.and_eq_true, Bool.or_eq_true, beq_iff_eq, ih]
      constructor
      · rintro ⟨h0, h⟩ k
        cases k with
        | zero => simp; tauto
        | succ k => simpa using h k
      · intro h
        exact ⟨by have := h 0; simp at this; tauto, fun k => by simpa using h (k+1)⟩

instance (s t : Shp) : Decidable (Compat s t) := decidable_of_iff _ (compatB_iff s t)

theorem Compat.symm {s t : Shp} (h : Compat s t) : Compat t s := by
  intro k; have := h k; tauto
theorem Compat.refl (s : Shp) : Compat s s := fun _ => Or.inr (Or.inr rfl)
theorem Compat.nil_left (s : Shp) : Compat [] s := fun _ => Or.inl (by simp)
theorem Compat.nil_right (s : Shp) : Compat s [] := fun _ => Or.inr (Or.inl (by simp))
@[simp] theorem compat_cons {d e : ℕ} {s t : Shp} :
    Compat (d :: s) (e :: t) ↔ (d = 1 ∨ e = 1 ∨ d = e) ∧ Compat s t := by
  constructor
  · intro h; exact ⟨by simpa using h 0, fun k => by simpa using h (k+1)⟩
  · rintro ⟨h0, h⟩ k
    cases k with
    | zero => simpa using h0
    | succ k => simpa using h k
theorem Compat.drop {s t : Shp} (h : Compat s t) (n) : Compat (s.drop n) (t.drop n) := by
  intro k; simpa [dim_drop] using h (n+k)
theorem Compat.tail {s t : Shp} (h : Compat s t) : Compat s.tail t.tail := by
  intro k; simpa [dim_tail] using h (k+1)

theorem Fits.compat {S s t : Shp} (h : Fits S s) (h' : Fits S t) : Compat s t := by
  intro k; rcases h k with h | h <;> rcases h' k with h' | h' <;> simp_all

theorem Fits.bsh {S s t : Shp} (h : Fits S s) (h' : Fits S t) : Fits S (bsh s t) := by
  intro k
  rw [dim_bsh]
  rcases h k with h | h <;> rcases h' k with h' | h' <;> simp [h, h']

theorem Compat.fits_left {s t : Shp} (h : Compat s t) : Fits (bsh s t) s := by
  intro k
  rw [dim_bsh]
  rcases h k with h | h | h <;> simp [h]

theorem Compat.fits_right {s t : Shp} (h : Compat s t) : Fits (bsh s t) t := by
  rw [bsh_comm]; exact h.symm.fits_left

theorem bsh_of_fits {S s : Shp} (h : Fits S s) (hl : s.length ≤ S.length) : bsh S s = S := by
  induction S generalizing s with
  | nil => cases s <;> simp_all
  | cons d S ih =>
    cases s with
    | nil => simp
    | cons e s =>
      simp only [fits_cons] at h
      simp only [bsh_cons, List.cons.injEq]
      refine ⟨?_, ih h.2 (by simpa using hl)⟩
      rcases h.1 with h | h <;> simp [h]

theorem inRange_bsh_pos {s t : Shp} {i} (h : InRange (bsh s t) i) : 0 ∉ bsh s t := h.pos

/-! ### Tensors -/

/-- A tensor: shape and entries.  `canon` says that reading at an arbitrary index is reading through
broadcasting, and that a tensor without entries reads as 0; so two tensors are equal exactly
when they have the same shape and the same entries (`Tensor.ext_inRange`). -/
structure Tensor (K : Type) [Zero K] where
  sh : Shp
  get : Idx → K
  canon : ∀ i, get i = if 0 ∈ sh then 0 else get (clip sh i)

variable {K : Type}

section basic
variable [Zero K]

theorem Tensor.get_clip (t : Tensor K) (i) : t.get (clip t.sh i) = t.get i := by
  rw [t.canon i, t.canon (clip t.sh i), clip_clip]
  split_ifs <;> rfl

theorem Tensor.get_clip_fits (t : Tensor K) {S} (h : Fits S t.sh) (i) : t.get (clip S i) = t.get i := by
  rw [← t.get_clip (clip S i), clip_clip_of_fits h, t.get_clip]

theorem Tensor.ext_inRange {a b : Tensor K} (hs : a.sh = b.sh)
    (h : ∀ i, InRange a.sh i → a.get i = b.get i) : a = b := by
  obtain ⟨s, f, hf⟩ := a
  obtain ⟨s', g, hg⟩ := b
  simp only at hs; subst hs
  congr 1
  funext i
  rw [hf i, hg i]
  split_ifs with h0
  · rfl
  · exact h _ (inRange_clip i h0)

/-- The tensor of shape `s` with entries `f`. -/
def ofFn (s : Shp) (f : Idx → K) : Tensor K where
  sh := s
  get i := if 0 ∈ s then 0 else f (clip s i)
  canon i := by simp; intro h h'; exact absurd h h'

@[simp] theorem ofFn_sh (s) (f : Idx → K) : (ofFn s f).sh = s := rfl

theorem ofFn_get {s : Shp} {i : Idx} (f : Idx → K) (h : InRange s i) : (ofFn s f).get i = f i := by
  simp [ofFn, h.pos, clip_of_inRange h]

theorem ofFn_get_fits {S s : Shp} {i : Idx} (f : Idx → K) (h : InRange S i) (hs : Fits S s) :
    (ofFn s f).get i = f (clip s i) := by
  simp [ofFn, hs.pos h.pos]

/-- Elementwise function of one tensor. -/
def tmap (f : K → K) (t : Tensor K) : Tensor K := ofFn t.sh fun i => f (t.get i)

@[simp] theorem tmap_sh (f : K → K) (t : Tensor K) : (tmap f t).sh = t.sh := rfl

theorem tmap_get (f : K → K) {t : Tensor K} {S i} (h : InRange S i) (ht : Fits S t.sh) :
    (tmap f t).get i = f (t.get i) := by
  rw [tmap, ofFn_get_fits _ h ht, t.get_clip]

/-- Elementwise function of two tensors with broadcasting. -/
def zipB (f : K → K → K) (a b : Tensor K) : Tensor K :=
  ofFn (bsh a.sh b.sh) fun i => f (a.get i) (b.get i)

@[simp] theorem zipB_sh (f : K → K → K) (a b : Tensor K) : (zipB f a b).sh = bsh a.sh b.sh := rfl

theorem zipB_get (f : K → K → K) {a b : Tensor K} {S i} (h : InRange S i)
    (ha : Fits S a.sh) (hb : Fits S b.sh) : (zipB f a b).get i = f (a.get i) (b.get i) := by
  have hc := ha.compat hb
  rw [zipB, ofFn_get_fits _ h (ha.bsh hb), a.get_clip_fits hc.fits_left, b.get_clip_fits hc.fits_right]

/-- Broadcast to a shape. -/
def bcast (s : Shp) (t : Tensor K) : Tensor K := ofFn s t.get

@[simp] theorem bcast_sh (s) (t : Tensor K) : (bcast s t).sh = s := rfl

theorem bcast_get {s : Shp} {t : Tensor K} {S i} (h : InRange S i) (hs : Fits S s) (ht : Fits s t.sh) :
    (bcast s t).get i = t.get i := by
  rw [bcast, ofFn_get_fits _ h hs, t.get_clip_fits ht]

theorem bcast_self (t : Tensor K) : bcast t.sh t = t :=
  Tensor.ext_inRange rfl fun _ h => bcast_get h (Fits.refl _) (Fits.refl _)

/-- A tensor filled with one value. -/
def fillT (s : Shp) (c : K) : Tensor K := ofFn s fun _ => c

@[simp] theorem fillT_sh (s) (c : K) : (fillT s c).sh = s := rfl
theorem fillT_get (c : K) {S s i} (h : InRange S i) (hs : Fits S s) : (fillT s c).get i = c := by
  rw [fillT, ofFn_get_fits _ h hs]

/-- A rank-0 tensor. -/
def scalarT (c : K) : Tensor K := fillT [] c
@[simp] theorem scalarT_sh (c : K) : (scalarT c).sh = [] := rfl
@[simp] theorem scalarT_get (c : K) (i) : (scalarT c).get i = c := by simp [scalarT, fillT, ofFn]

end basic

/-! ### Indices of matrices -/

/-- Put a coordinate in front (as last axis). -/
def icons (j : ℕ) (b : Idx) : Idx := fun k => match k with | 0 => j | k+1 => b k
/-- Drop the last axis. -/
def itail (i : Idx) : Idx := fun k => i (k+1)

@[simp] theorem icons_zero (j b) : icons j b 0 = j := rfl
@[simp] theorem icons_succ (j b k) : icons j b (k+1) = b k := rfl
@[simp] theorem icons_one (j i b) : icons j (icons i b) 1 = i := rfl
@[simp] theorem itail_icons (j b) : itail (icons j b) = b := rfl
@[simp] theorem icons_itail (i : Idx) : icons (i 0) (itail i) = i := by
  funext k; cases k <;> rfl

@[simp] theorem inRange_cons {d s j b} : InRange (d :: s) (icons j b) ↔ j < d ∧ InRange s b := by
  constructor
  · intro h; exact ⟨by simpa using h 0, fun k => by simpa using h (k+1)⟩
  · rintro ⟨h0, h⟩ k
    cases k with
    | zero => simpa using h0
    | succ k => simpa using h k

theorem inRange_cons' {d s i} : InRange (d :: s) i ↔ i 0 < d ∧ InRange s (itail i) := by
  rw [← inRange_cons (d := d), icons_itail]

theorem clip_cons (d s j b) : clip (d :: s) (icons j b) = icons (if j < d then j else 0) (clip s b) := by
  funext k; cases k <;> simp [clip]
theorem clip_cons_of_lt {d s j b} (h : j < d) : clip (d :: s) (icons j b) = icons j (clip s b) := by
  simp [clip_cons, h]

namespace Tensor
variable [Zero K]

/-- Number of axes. -/
abbrev rank (t : Tensor K) : ℕ := t.sh.length
/-- Batch shape: everything but the last two axes. -/
abbrev bt (t : Tensor K) : Shp := t.sh.drop 2
/-- Number of rows: axis -2. -/
abbrev rows (t : Tensor K) : ℕ := dim t.sh 1
/-- Number of columns: axis -1. -/
abbrev cols (t : Tensor K) : ℕ := dim t.sh 0
/-- Entry `(i, j)` of batch element `b`. -/
def at' (t : Tensor K) (b : Idx) (i j : ℕ) : K := t.get (icons j (icons i b))
/-- Entry `i` of batch element `b` of a batch of vectors. -/
def vat (t : Tensor K) (b : Idx) (i : ℕ) : K := t.get (icons i b)

theorem sh_eq {t : Tensor K} (h : 2 ≤ t.rank) : t.sh = t.cols :: t.rows :: t.bt := by
  rcases t with ⟨_ | ⟨c, _ | ⟨r, bt⟩⟩, f, hf⟩
  · simp [rank] at h
  · simp [rank] at h
  · rfl

theorem sh_eq_vec {t : Tensor K} (h : 1 ≤ t.rank) : t.sh = t.cols :: t.sh.tail := by
  rcases t with ⟨_ | ⟨c, bt⟩, f, hf⟩
  · simp [rank] at h
  · rfl

theorem ext_mat {a b : Tensor K} {bt r c} (ha : a.sh = c :: r :: bt) (hb : b.sh = c :: r :: bt)
    (h : ∀ β i j, InRange bt β → i < r → j < c → a.at' β i j = b.at' β i j) : a = b := by
  apply ext_inRange (ha.trans hb.symm)
  intro i hi
  rw [ha, inRange_cons', inRange_cons'] at hi
  have := h (itail (itail i)) (i 1) (i 0) hi.2.2 hi.2.1 hi.1
  simp only [at'] at this
  have e : icons (i 0) (icons (i 1) (itail (itail i))) = i := by
    funext k; rcases k with _ | _ | k <;> rfl
  rwa [e] at this

theorem ext_vec {a b : Tensor K} {bt n} (ha : a.sh = n :: bt) (hb : b.sh = n :: bt)
    (h : ∀ β i, InRange bt β → i < n → a.vat β i = b.vat β i) : a = b := by
  apply ext_inRange (ha.trans hb.symm)
  intro i hi
  rw [ha, inRange_cons'] at hi
  have := h (itail i) (i 0) hi.2 hi.1
  simpa only [vat, icons_itail] using this

theorem at'_clip {t : Tensor K} {S : Shp} (h : Fits S t.bt) (β i j) :
    t.at' (clip S β) i j = t.at' β i j := by
  unfold at'
  rw [← t.get_clip, ← t.get_clip (icons j (icons i β))]
  congr 1
  funext k
  rcases k with _ | _ | k
  · rfl
  · rfl
  · have := congrFun (clip_clip_of_fits h β) k
    simp only [clip, dim_drop] at this
    simp only [clip, show k + 1 + 1 = 2 + k by omega]
    simp only [show 2 + k = k + 1 + 1 by omega, icons_succ] at this ⊢
    exact this

theorem vat_clip {t : Tensor K} {S : Shp} (h : Fits S t.sh.tail) (β i) :
    t.vat (clip S β) i = t.vat β i := by
  unfold vat
  rw [← t.get_clip, ← t.get_clip (icons i β)]
  congr 1
  funext k
  rcases k with _ | k
  · rfl
  · have := congrFun (clip_clip_of_fits h β) k
    simp only [clip, dim_tail] at this
    simp only [clip, icons_succ]
    exact this

end Tensor

section mats
variable [Zero K]

/-- A batch of `r × c` matrices from its entries. -/
def mkMat (bt : Shp) (r c : ℕ) (f : Idx → ℕ → ℕ → K) : Tensor K :=
  ofFn (c :: r :: bt) fun i => f (itail (itail i)) (i 1) (i 0)

@[simp] theorem mkMat_sh (bt r c) (f : Idx → ℕ → ℕ → K) : (mkMat bt r c f).sh = c :: r :: bt := rfl

theorem at_mkMat {S bt : Shp} {r c β i j} (f : Idx → ℕ → ℕ → K) (hβ : InRange S β) (hS : Fits S bt)
    (hi : i < r) (hj : j < c) : (mkMat bt r c f).at' β i j = f (clip bt β) i j := by
  unfold mkMat Tensor.at'
  have : InRange (c :: r :: S) (icons j (icons i β)) := by simp [*]
  rw [ofFn_get_fits _ this (by simp [hS]), clip_cons_of_lt hj, clip_cons_of_lt hi]
  rfl

/-- A batch of vectors from its entries. -/
def mkVec (bt : Shp) (n : ℕ) (f : Idx → ℕ → K) : Tensor K :=
  ofFn (n :: bt) fun i => f (itail i) (i 0)

@[simp] theorem mkVec_sh (bt n) (f : Idx → ℕ → K) : (mkVec bt n f).sh = n :: bt := rfl

theorem vat_mkVec {S bt : Shp} {n β i} (f : Idx → ℕ → K) (hβ : InRange S β) (hS : Fits S bt)
    (hi : i < n) : (mkVec bt n f).vat β i = f (clip bt β) i := by
  unfold mkVec Tensor.vat
  have : InRange (n :: S) (icons i β) := by simp [*]
  rw [ofFn_get_fits _ this (by simp [hS]), clip_cons_of_lt hi]
  rfl

theorem at_zipB (f : K → K → K) {a b : Tensor K} {S : Shp} {r c β i j} (hβ : InRange S β)
    (hi : i < r) (hj : j < c) (ha : Fits (c :: r :: S) a.sh) (hb : Fits (c :: r :: S) b.sh) :
    (zipB f a b).at' β i j = f (a.at' β i j) (b.at' β i j) :=
  zipB_get f (S := c :: r :: S) (by simp [*]) ha hb

theorem vat_zipB (f : K → K → K) {a b : Tensor K} {S : Shp} {n β i} (hβ : InRange S β)
    (hi : i < n) (ha : Fits (n :: S) a.sh) (hb : Fits (n :: S) b.sh) :
    (zipB f a b).vat β i = f (a.vat β i) (b.vat β i) :=
  zipB_get f (S := n :: S) (by simp [*]) ha hb

theorem at_tmap (f : K → K) {a : Tensor K} {S : Shp} {r c β i j} (hβ : InRange S β)
    (hi : i < r) (hj : j < c) (ha : Fits (c :: r :: S) a.sh) :
    (tmap f a).at' β i j = f (a.at' β i j) :=
  tmap_get f (S := c :: r :: S) (by simp [*]) ha

theorem vat_tmap (f : K → K) {a : Tensor K} {S : Shp} {n β i} (hβ : InRange S β)
    (hi : i < n) (ha : Fits (n :: S) a.sh) :
    (tmap f a).vat β i = f (a.vat β i) :=
  tmap_get f (S := n :: S) (by simp [*]) ha

/-- Transpose the last two axes. -/
def tr (t : Tensor K) : Tensor K := mkMat t.bt t.cols t.rows fun β i j => t.at' β j i

@[simp] theorem tr_sh (t : Tensor K) : (tr t).sh = t.rows :: t.cols :: t.bt := rfl
@[simp] theorem tr_rows (t : Tensor K) : (tr t).rows = t.cols := rfl
@[simp] theorem tr_cols (t : Tensor K) : (tr t).cols = t.rows := rfl
@[simp] theorem tr_bt (t : Tensor K) : (tr t).bt = t.bt := rfl

theorem at_tr {t : Tensor K} {S : Shp} {β i j} (hβ : InRange S β) (hS : Fits S t.bt)
    (hi : i < t.cols) (hj : j < t.rows) : (tr t).at' β i j = t.at' β j i := by
  rw [tr, at_mkMat _ hβ hS hi hj, Tensor.at'_clip (Fits.refl _)]

theorem tr_tr {t : Tensor K} (h : 2 ≤ t.rank) : tr (tr t) = t := by
  refine Tensor.ext_mat (bt := t.bt) (r := t.rows) (c := t.cols) (by simp) (Tensor.sh_eq h) ?_
  intro β i j hβ hi hj
  rw [at_tr hβ (by simpa using Fits.refl _) (by simpa) (by simpa), at_tr hβ (Fits.refl _) hj hi]

/-- Diagonal matrix from a batch of vectors (`B.diag_construct`). -/
def diagC (v : Tensor K) : Tensor K :=
  mkMat v.sh.tail v.cols v.cols fun β i j => if i = j then v.vat β i else 0

@[simp] theorem diagC_sh (v : Tensor K) : (diagC v).sh = v.cols :: v.cols :: v.sh.tail := rfl
@[simp] theorem diagC_rows (v : Tensor K) : (diagC v).rows = v.cols := rfl
@[simp] theorem diagC_cols (v : Tensor K) : (diagC v).cols = v.cols := rfl
@[simp] theorem diagC_bt (v : Tensor K) : (diagC v).bt = v.sh.tail := rfl

theorem at_diagC {v : Tensor K} {S : Shp} {β i j} (hβ : InRange S β) (hS : Fits S v.sh.tail)
    (hi : i < v.cols) (hj : j < v.cols) :
    (diagC v).at' β i j = if i = j then v.vat β i else 0 := by
  rw [diagC, at_mkMat _ hβ hS hi hj, Tensor.vat_clip (Fits.refl _)]

/-- Diagonal of a batch of matrices (`B.diag_extract`). -/
def diagE (t : Tensor K) : Tensor K :=
  mkVec t.bt (min t.rows t.cols) fun β i => t.at' β i i

@[simp] theorem diagE_sh (t : Tensor K) : (diagE t).sh = min t.rows t.cols :: t.bt := rfl

theorem vat_diagE {t : Tensor K} {S : Shp} {β i} (hβ : InRange S β) (hS : Fits S t.bt)
    (hi : i < min t.rows t.cols) : (diagE t).vat β i = t.at' β i i := by
  rw [diagE, vat_mkVec _ hβ hS hi, Tensor.at'_clip (Fits.refl _)]

/-- The constant matrix: `r × c` filled with the batch of scalars `t`. -/
def constM (t : Tensor K) (r c : ℕ) : Tensor K := mkMat t.sh r c fun β _ _ => t.get β

@[simp] theorem constM_sh (t : Tensor K) (r c) : (constM t r c).sh = c :: r :: t.sh := rfl

theorem at_constM {t : Tensor K} {S : Shp} {r c β i j} (hβ : InRange S β) (hS : Fits S t.sh)
    (hi : i < r) (hj : j < c) : (constM t r c).at' β i j = t.get β := by
  rw [constM, at_mkMat _ hβ hS hi hj, t.get_clip]

/-- Insert `n` axes of size 1 at the end (`B.expand_dims(t, axis=-1, times=n)`). -/
def expandEnd (n : ℕ) (t : Tensor K) : Tensor K :=
  ofFn (List.replicate n 1 ++ t.sh) fun i => t.get fun k => i (k + n)

/-- Insert an axis of size 1 before the last (`B.expand_dims(t, axis=-2)`). -/
def expandRow (t : Tensor K) : Tensor K :=
  mkMat t.sh.tail 1 t.cols fun β _ j => t.vat β j

@[simp] theorem expandRow_sh (t : Tensor K) : (expandRow t).sh = t.cols :: 1 :: t.sh.tail := rfl

theorem expandEnd_sh (n) (t : Tensor K) : (expandEnd n t).sh = List.replicate n 1 ++ t.sh := rfl
@[simp] theorem expandEnd_one_sh (t : Tensor K) : (expandEnd 1 t).sh = 1 :: t.sh := rfl
@[simp] theorem expandEnd_two_sh (t : Tensor K) : (expandEnd 2 t).sh = 1 :: 1 :: t.sh := rfl

theorem Tensor.get_congr (t : Tensor K) {i i' : Idx} (h : ∀ k, clip t.sh i k = clip t.sh i' k) :
    t.get i = t.get i' := by
  rw [← t.get_clip i, ← t.get_clip i', funext h]

theorem at_expandEnd_two {t : Tensor K} {S : Shp} {β} (i j) (hβ : InRange S β) (hS : Fits S t.sh) :
    (expandEnd 2 t).at' β i j = t.get β := by
  unfold expandEnd Tensor.at'
  have h : InRange ((j+1) :: (i+1) :: S) (icons j (icons i β)) := by simp [hβ]
  rw [ofFn_get_fits _ h (by simp [List.replicate, hS])]
  apply t.get_congr
  intro k
  simp [clip, List.replicate]
  split_ifs <;> simp_all

theorem at_expandEnd_one {t : Tensor K} {S : Shp} {β i} (j) (hβ : InRange S β)
    (hS : Fits S t.sh.tail) (hi : i < t.cols) (h1 : 1 ≤ t.rank) :
    (expandEnd 1 t).at' β i j = t.vat β i := by
  unfold expandEnd Tensor.at'
  have h : InRange ((j+1) :: t.cols :: S) (icons j (icons i β)) := by simp [hβ, hi]
  have e := Tensor.sh_eq_vec h1
  rw [ofFn_get_fits _ h (by rw [e]; simp [List.replicate, hS])]
  clear e
  apply t.get_congr
  intro k
  rcases k with _ | k
  · simp [clip, List.replicate]; split_ifs <;> simp_all
  · by_cases hk : β k < dim t.sh (k+1)
    · simp [clip, List.replicate, hk]
    · simp [clip, List.replicate, hk]

theorem vat_expandEnd_one {t : Tensor K} {S : Shp} {β} (i) (hβ : InRange S β)
    (hS : Fits S t.sh) : (expandEnd 1 t).vat β i = t.get β := by
  unfold expandEnd Tensor.vat
  have h : InRange ((i+1) :: S) (icons i β) := by simp [hβ]
  rw [ofFn_get_fits _ h (by simp [List.replicate, hS])]
  apply t.get_congr
  intro k
  simp [clip, List.replicate]; split_ifs <;> simp_all

theorem at_expandRow {t : Tensor K} {S : Shp} {β j} (i) (hβ : InRange S β)
    (hS : Fits S t.sh.tail) (hj : j < t.cols) : (expandRow t).at' β i j = t.vat β j := by
  unfold expandRow Tensor.at' mkMat
  have h : InRange (t.cols :: (i+1) :: S) (icons j (icons i β)) := by simp [hβ, hj]
  rw [ofFn_get_fits _ h (by simp [hS])]
  simp only [clip_cons_of_lt hj]
  rw [show (icons j (clip (1 :: t.sh.tail) (icons i β))) 0 = j from rfl]
  rw [show itail (itail (icons j (clip (1 :: t.sh.tail) (icons i β)))) = clip t.sh.tail β by
    rw [clip_cons]; rfl]
  exact Tensor.vat_clip (Fits.refl _) β j

end mats

section sums
variable [CommRing K]

open Finset in
/-- Batched matrix product with broadcasting of the batch axes. -/
def mm (a b : Tensor K) : Tensor K :=
  mkMat (bsh a.bt b.bt) a.rows b.cols fun β i j => ∑ k ∈ range a.cols, a.at' β i k * b.at' β k j

@[simp] theorem mm_sh (a b : Tensor K) : (mm a b).sh = b.cols :: a.rows :: bsh a.bt b.bt := rfl
@[simp] theorem mm_rows (a b : Tensor K) : (mm a b).rows = a.rows := rfl
@[simp] theorem mm_cols (a b : Tensor K) : (mm a b).cols = b.cols := rfl
@[simp] theorem mm_bt (a b : Tensor K) : (mm a b).bt = bsh a.bt b.bt := rfl

theorem at_mm {a b : Tensor K} {S : Shp} {β i j} (hβ : InRange S β) (ha : Fits S a.bt)
    (hb : Fits S b.bt) (hi : i < a.rows) (hj : j < b.cols) :
    (mm a b).at' β i j = ∑ k ∈ Finset.range a.cols, a.at' β i k * b.at' β k j := by
  have hc := ha.compat hb
  rw [mm, at_mkMat _ hβ (ha.bsh hb) hi hj]
  simp only [Tensor.at'_clip hc.fits_left, Tensor.at'_clip hc.fits_right]

end sums

end Verif
