/-
Literal model of `matrix/shape.py`, in Python's axis order (first axis first), and the broadcasting algebra (C27).
-/
import Verif.Mat

namespace Verif.Py
open Verif

/-- A Python shape, first axis first. -/
abbrev PShape := List ℕ

/-- `broadcast(d1: Dimension, d2: Dimension)`, `shape.py` 116-120. -/
def broadcastDim (d1 d2 : ℕ) : E ℕ :=
  if d1 ≠ 1 ∧ d2 ≠ 1 ∧ d1 ≠ d2 then .error .runtime
  else .ok (if d1 = 1 then d2 else d1)

/-- `Shape(*(broadcast(d1, d2) for d1, d2 in zip(s1, s2)))`, `shape.py` 103. -/
def zipDims : PShape → PShape → E PShape
  | d1 :: s1, d2 :: s2 => do
    let d ← broadcastDim d1 d2
    let ds ← zipDims s1 s2
    return d :: ds
  | _, _ => .ok []

/-- `broadcast(s1: Shape, s2: Shape)`, `shape.py` 92-105. -/
def broadcast2 (s1 s2 : PShape) : E PShape :=
  if s1.length ≠ s2.length then .error .runtime else zipDims s1 s2

/-- `expand_and_broadcast(s1: Shape, s2: Shape)`, `shape.py` 133-150. -/
def expandAndBroadcast2 (s1 s2 : PShape) : E PShape :=
  let lenDiff : Int := (s1.length : Int) - s2.length
  if lenDiff < 0 then broadcast2 (List.replicate (-lenDiff).toNat 1 ++ s1) s2
  else if lenDiff > 0 then broadcast2 s1 (List.replicate lenDiff.toNat 1 ++ s2)
  else broadcast2 s1 s2

/-- `for s in further_shapes: running_shape = f(running_shape, s)`, `shape.py` 108-113 and 153-158. -/
def running (f : PShape → PShape → E PShape) (r : PShape) : List PShape → E PShape
  | [] => .ok r
  | s :: ss => do
    let r' ← f r s
    running f r' ss

/-- `expand_and_broadcast(*xs)`, `shape.py` 153-168: any number of shapes. -/
def expandAndBroadcast : List PShape → E PShape
  | [] => .error .value
  | [x] => .ok x
  | x :: y :: xs => do
    let r ← expandAndBroadcast2 x y
    running expandAndBroadcast2 r xs

/-- `broadcast(*xs)`, `shape.py` 108-130: any number of shapes of equal length. -/
def broadcast : List PShape → E PShape
  | [] => .error .value
  | [x] => .ok x
  | x :: y :: xs => do
    let r ← broadcast2 x y
    running broadcast2 r xs

/-- `compatible(s1, s2)`, `shape.py` 57-71. -/
def compatible (s1 s2 : PShape) : Bool :=
  match expandAndBroadcast2 s1 s2 with
  | .ok _ => true
  | .error _ => false

/-! ### Specification: numpy broadcasting -/

/-- Size of the `k`-th axis counted from the last one; missing leading axes have size 1. -/
def fromEnd (s : PShape) (k : ℕ) : ℕ := s.reverse.getD k 1

/-- Aligned at the last axis, dimensions are equal or one of them is 1. -/
def Broadcastable (s t : PShape) : Prop := ∀ k, fromEnd s k = fromEnd t k ∨ fromEnd s k = 1 ∨ fromEnd t k = 1

/-- `u` is the numpy broadcast of `s` and `t`. -/
def IsBroadcastOf (s t u : PShape) : Prop :=
  u.length = max s.length t.length ∧
  ∀ k, (fromEnd s k = fromEnd t k ∧ fromEnd u k = fromEnd s k) ∨ (fromEnd s k = 1 ∧ fromEnd u k = fromEnd t k) ∨
    (fromEnd t k = 1 ∧ fromEnd u k = fromEnd s k)

/-- `u` is the numpy broadcast of all the shapes in `L`. -/
def IsBroadcastOfAll (L : List PShape) (u : PShape) : Prop :=
  (∀ s ∈ L, s.length ≤ u.length ∧ ∀ k, fromEnd s k = 1 ∨ fromEnd s k = fromEnd u k) ∧
  (∃ s ∈ L, s.length = u.length) ∧ ∀ k, ∃ s ∈ L, fromEnd s k = fromEnd u k

/-! ### The link with the broadcasting of the main model -/

theorem fromEnd_eq (s : PShape) (k : ℕ) : fromEnd s k = dim s.reverse k := rfl

theorem ext_dim {s t : List ℕ} (hl : s.length = t.length) (h : ∀ k, dim s k = dim t k) : s = t := by
  refine List.ext_getElem hl fun k h1 h2 => ?_
  have := h k
  simpa [dim, List.getD_eq_getElem?_getD, h1, h2] using this

theorem broadcastDim_eq (d e : ℕ) : broadcastDim d e = if d = 1 ∨ e = 1 ∨ d = e then .ok (bd d e) else .error .runtime := by
  unfold broadcastDim bd
  split_ifs <;> simp_all

theorem zipDims_eq (s t : PShape) (h : s.length = t.length) :
    zipDims s t = if Compat s t then .ok (bsh s t) else .error .runtime := by
  induction s generalizing t with
  | nil => cases t <;> simp_all [zipDims, Compat.nil_left]
  | cons d s ih =>
    cases t with
    | nil => simp at h
    | cons e t =>
      simp only [zipDims, broadcastDim_eq, ih t (by simpa using h), compat_cons]
      by_cases h1 : d = 1 ∨ e = 1 ∨ d = e
      · by_cases h2 : Compat s t
        · simp only [h1, h2, if_true, and_self]; rfl
        · simp only [h1, h2, if_true, if_false, and_false]; rfl
      · simp only [h1, if_false, false_and]; rfl

theorem dim_reverse {s : List ℕ} {k : ℕ} (h : k < s.length) : dim s.reverse k = dim s (s.length - 1 - k) := by
  simp [dim, List.getD_eq_getElem?_getD, List.getElem?_reverse h]

theorem compat_reverse {s t : List ℕ} (h : s.length = t.length) : Compat s.reverse t.reverse ↔ Compat s t := by
  have key : ∀ {s t : List ℕ}, s.length = t.length → Compat s t → Compat s.reverse t.reverse := by
    intro s t h hc k
    by_cases hk : k < s.length
    · rw [dim_reverse hk, dim_reverse (h ▸ hk), ← h]; exact hc _
    · left; simp [dim, List.getD_eq_getElem?_getD, hk]
  refine ⟨fun hc => ?_, key h⟩
  have := key (by simpa using h) hc
  simpa using this

theorem bsh_reverse {s t : List ℕ} (h : s.length = t.length) : bsh s.reverse t.reverse = (bsh s t).reverse := by
  refine ext_dim (by simp [length_bsh, h]) fun k => ?_
  by_cases hk : k < s.length
  · rw [dim_bsh, dim_reverse hk, dim_reverse (h ▸ hk), dim_reverse (by simp [length_bsh]; omega), dim_bsh, length_bsh, ← h, max_self]
  · rw [dim_bsh]; simp [dim, List.getD_eq_getElem?_getD, length_bsh, h ▸ hk, hk]

theorem dim_append_ones (s : List ℕ) (n k : ℕ) : dim (s ++ List.replicate n 1) k = dim s k := by
  simp only [dim, List.getD_eq_getElem?_getD, List.getElem?_append, List.getElem?_replicate]
  split_ifs with h1 h2 <;> simp_all

theorem compat_append_ones (s t : List ℕ) (n : ℕ) : Compat (s ++ List.replicate n 1) t ↔ Compat s t := by
  simp [Compat, dim_append_ones]

theorem bsh_append_ones {s t : List ℕ} {n : ℕ} (h : s.length + n ≤ t.length) : bsh (s ++ List.replicate n 1) t = bsh s t := by
  refine ext_dim (by simp [length_bsh]; omega) fun k => by simp [dim_append_ones]

theorem zipDims_pad_left {s t : PShape} {n : ℕ} (h : n + s.length = t.length) :
    zipDims (List.replicate n 1 ++ s) t = if Compat s.reverse t.reverse then .ok (bsh s.reverse t.reverse).reverse else .error .runtime := by
  have hl : (List.replicate n 1 ++ s).length = t.length := by simpa using h
  rw [zipDims_eq _ _ hl]
  have e := compat_reverse hl
  have e2 := bsh_reverse hl
  simp only [List.reverse_append, List.reverse_replicate] at e e2
  rw [compat_append_ones] at e
  rw [bsh_append_ones (by simp; omega)] at e2
  simp only [← e, e2, List.reverse_reverse]

theorem zipDims_comm {s t : PShape} (h : s.length = t.length) : zipDims s t = zipDims t s := by
  have : Compat s t ↔ Compat t s := ⟨Compat.symm, Compat.symm⟩
  rw [zipDims_eq _ _ h, zipDims_eq _ _ h.symm, bsh_comm]
  exact if_congr this rfl rfl

/-- The two-argument function of `shape.py` is the broadcasting used throughout the model (there the last axis comes first). -/
theorem expandAndBroadcast2_eq (s t : PShape) :
    expandAndBroadcast2 s t = if Compat s.reverse t.reverse then .ok (bsh s.reverse t.reverse).reverse else .error .runtime := by
  unfold expandAndBroadcast2 broadcast2
  simp only
  by_cases h1 : (s.length : Int) - t.length < 0
  · have h2 : (-((s.length : Int) - t.length)).toNat + s.length = t.length := by omega
    rw [if_pos h1, if_neg (by simpa using h2), zipDims_pad_left h2]
  · by_cases h3 : (s.length : Int) - t.length > 0
    · have h2 : ((s.length : Int) - t.length).toNat + t.length = s.length := by omega
      have h4 : s.length = (List.replicate ((s.length : Int) - t.length).toNat 1 ++ t).length := by simpa using h2.symm
      have : Compat s.reverse t.reverse ↔ Compat t.reverse s.reverse := ⟨Compat.symm, Compat.symm⟩
      rw [if_neg h1, if_pos h3, if_neg (by simpa using h2.symm), zipDims_comm h4, zipDims_pad_left h2, bsh_comm]
      exact if_congr this.symm rfl rfl
    · have h2 : 0 + s.length = t.length := by omega
      have := zipDims_pad_left h2
      rw [if_neg h1, if_neg h3, if_neg (by omega)]
      simpa using this

/-- The function used by the main model is the function of `shape.py`. -/
theorem bsE_eq (s t : Shp) : bsE s t = (expandAndBroadcast2 s.reverse t.reverse).map List.reverse := by
  rw [expandAndBroadcast2_eq, bsE]
  simp only [List.reverse_reverse]
  split_ifs <;> simp [Except.map]

/-- So is the compatibility assertion. -/
theorem assertCompatible_eq (s t : Shp) : assertCompatible s t = guardE (compatible s.reverse t.reverse = true) .assertion := by
  unfold assertCompatible compatible
  rw [expandAndBroadcast2_eq]
  simp only [List.reverse_reverse]
  split_ifs with h <;> simp [guardE, h]

/-! ### C27 -/

/-- C27.  It succeeds exactly with the numpy broadcast. -/
theorem C27_result (s t u : PShape) : expandAndBroadcast2 s t = .ok u ↔ IsBroadcastOf s t u := by
  rw [expandAndBroadcast2_eq]
  simp only [IsBroadcastOf, fromEnd_eq]
  constructor
  · intro h
    split_ifs at h with hc
    simp only [Except.ok.injEq] at h
    subst h
    refine ⟨by simp [length_bsh], fun k => ?_⟩
    rw [List.reverse_reverse, dim_bsh]
    rcases hc k with h | h | h <;> simp [h]
  · rintro ⟨hl, h⟩
    have hc : Compat s.reverse t.reverse := by
      intro k; rcases h k with h | h | h <;> simp [h.1]
    rw [if_pos hc, Except.ok.injEq]
    refine List.reverse_injective ?_
    refine ext_dim (by simp [length_bsh, hl]) fun k => ?_
    rw [List.reverse_reverse, dim_bsh]
    rcases h k with ⟨h, h'⟩ | ⟨h, h'⟩ | ⟨h, h'⟩ <;> simp [h, h']

/-- It succeeds exactly when the shapes are broadcastable ... -/
theorem C27_succeeds (s t : PShape) : (∃ u, expandAndBroadcast2 s t = .ok u) ↔ Broadcastable s t := by
  rw [expandAndBroadcast2_eq]
  have : Compat s.reverse t.reverse ↔ Broadcastable s t := by
    simp only [Compat, Broadcastable, fromEnd_eq]
    exact ⟨fun h k => by rcases h k with h | h | h <;> simp [h], fun h k => by rcases h k with h | h | h <;> simp [h]⟩
  rw [← this]
  split_ifs with h <;> simp [h]

/-- ... raises RuntimeError otherwise ... -/
theorem C27_raises (s t : PShape) : expandAndBroadcast2 s t = .error .runtime ↔ ¬ Broadcastable s t := by
  rw [← C27_succeeds, expandAndBroadcast2_eq]
  split_ifs with h <;> simp

/-- ... and `compatible` says which. -/
theorem C27_compatible (s t : PShape) : compatible s t = true ↔ Broadcastable s t := by
  rw [← C27_succeeds, compatible]
  cases expandAndBroadcast2 s t <;> simp

theorem C27_comm (s t : PShape) : expandAndBroadcast2 s t = expandAndBroadcast2 t s := by
  have : Compat s.reverse t.reverse ↔ Compat t.reverse s.reverse := ⟨Compat.symm, Compat.symm⟩
  rw [expandAndBroadcast2_eq, expandAndBroadcast2_eq, bsh_comm]
  exact if_congr this rfl rfl

theorem C27_idem (s : PShape) : expandAndBroadcast2 s s = .ok s := by
  rw [expandAndBroadcast2_eq, if_pos (Compat.refl _), bsh_self, List.reverse_reverse]

theorem C27_unit (s : PShape) : expandAndBroadcast2 s [] = .ok s ∧ expandAndBroadcast2 [] s = .ok s := by
  refine (and_iff_left_of_imp fun h => ?_).2 ?_
  · rw [C27_comm]; exact h
  · rw [expandAndBroadcast2_eq]; simp [Compat.nil_right]

theorem compat_bsh_left {s t u : Shp} (h : Compat s t) : Compat (bsh s t) u ↔ Compat s u ∧ Compat t u := by
  constructor
  · intro h'
    refine ⟨fun k => ?_, fun k => ?_⟩ <;>
    · have h1 := h k
      have h2 := h' k
      rw [dim_bsh] at h2
      unfold bd at h2
      split_ifs at h2 <;> omega
  · rintro ⟨h1, h2⟩ k
    have h0 := h k
    have h1 := h1 k
    have h2 := h2 k
    rw [dim_bsh]
    unfold bd
    split_ifs <;> omega

/-- Associativity, including which inputs fail and with which exception. -/
theorem C27_assoc (s t u : PShape) :
    (do let r ← expandAndBroadcast2 s t; expandAndBroadcast2 r u) = (do let r ← expandAndBroadcast2 t u; expandAndBroadcast2 s r) := by
  simp only [expandAndBroadcast2_eq]
  by_cases h1 : Compat s.reverse t.reverse <;> by_cases h2 : Compat t.reverse u.reverse
  · simp only [h1, h2, if_true, bind, Except.bind, List.reverse_reverse, bsh_assoc]
    have : Compat (bsh s.reverse t.reverse) u.reverse ↔ Compat s.reverse (bsh t.reverse u.reverse) := by
      rw [compat_bsh_left h1]
      have e : Compat s.reverse (bsh t.reverse u.reverse) ↔ Compat (bsh t.reverse u.reverse) s.reverse := ⟨Compat.symm, Compat.symm⟩
      rw [e, compat_bsh_left h2]
      exact ⟨fun h => ⟨h1.symm, h.1.symm⟩, fun h => ⟨h.2.symm, h2⟩⟩
    exact if_congr this rfl rfl
  · have : ¬ Compat (bsh s.reverse t.reverse) u.reverse := fun h => h2 ((compat_bsh_left h1).1 h).2
    simp [h1, h2, bind, Except.bind, this]
  · have : ¬ Compat s.reverse (bsh t.reverse u.reverse) := fun h => h1 ((compat_bsh_left h2).1 h.symm).1.symm
    simp [h1, h2, bind, Except.bind, this]
  · simp [h1, h2, bind, Except.bind]

theorem isBroadcastOf_iff (s t u : PShape) : IsBroadcastOf s t u ↔ IsBroadcastOfAll [s, t] u := by
  constructor
  · rintro ⟨hl, h⟩
    refine ⟨?_, ?_, ?_⟩
    · intro x hx
      simp only [List.mem_cons, List.not_mem_nil, or_false] at hx
      rcases hx with rfl | rfl
      · exact ⟨by omega, fun k => by rcases h k with h | h | h <;> omega⟩
      · exact ⟨by omega, fun k => by rcases h k with h | h | h <;> omega⟩
    · rcases le_total s.length t.length with h | h
      · exact ⟨t, by simp, by omega⟩
      · exact ⟨s, by simp, by omega⟩
    · intro k
      rcases h k with h | h | h
      · exact ⟨s, by simp, by omega⟩
      · exact ⟨t, by simp, by omega⟩
      · exact ⟨s, by simp, by omega⟩
  · rintro ⟨h1, ⟨x, hx, h2⟩, h3⟩
    obtain ⟨l1, f1⟩ := h1 s (by simp)
    obtain ⟨l2, f2⟩ := h1 t (by simp)
    refine ⟨?_, fun k => ?_⟩
    · simp only [List.mem_cons, List.not_mem_nil, or_false] at hx
      rcases hx with rfl | rfl <;> omega
    · have a1 := f1 k
      have a2 := f2 k
      obtain ⟨y, hy, a3⟩ := h3 k
      simp only [List.mem_cons, List.not_mem_nil, or_false] at hy
      rcases hy with rfl | rfl <;> omega

theorem isBroadcastOfAll_cons {s t r u : PShape} {L : List PShape} (h : IsBroadcastOf s t r) :
    IsBroadcastOfAll (r :: L) u ↔ IsBroadcastOfAll (s :: t :: L) u := by
  obtain ⟨hl, h⟩ := h
  simp only [IsBroadcastOfAll, List.forall_mem_cons, List.exists_mem_cons_iff]
  constructor
  · rintro ⟨⟨⟨a, a'⟩, b⟩, c, d⟩
    refine ⟨⟨⟨by omega, fun k => ?_⟩, ⟨by omega, fun k => ?_⟩, b⟩, ?_, fun k => ?_⟩
    · have := a' k; rcases h k with h | h | h <;> omega
    · have := a' k; rcases h k with h | h | h <;> omega
    · rcases c with c | c
      · rcases le_total s.length t.length with h | h
        · exact Or.inr (Or.inl (by omega))
        · exact Or.inl (by omega)
      · exact Or.inr (Or.inr c)
    · rcases d k with d | d
      · rcases h k with h | h | h
        · exact Or.inl (by omega)
        · exact Or.inr (Or.inl (by omega))
        · exact Or.inl (by omega)
      · exact Or.inr (Or.inr d)
  · rintro ⟨⟨⟨a, a'⟩, ⟨b, b'⟩, e⟩, c, d⟩
    refine ⟨⟨⟨by omega, fun k => ?_⟩, e⟩, ?_, fun k => ?_⟩
    · have := a' k; have := b' k; rcases h k with h | h | h <;> omega
    · rcases c with c | c | c
      · exact Or.inl (by omega)
      · exact Or.inl (by omega)
      · exact Or.inr c
    · have h1 := a' k
      have h2 := b' k
      rcases d k with d | d | d
      · exact Or.inl (by rcases h k with h | h | h <;> omega)
      · exact Or.inl (by rcases h k with h | h | h <;> omega)
      · exact Or.inr d

theorem isBroadcastOfAll_pair {s t u : PShape} {L : List PShape} (h : IsBroadcastOfAll (s :: t :: L) u) : Broadcastable s t := by
  intro k
  have h1 := (h.1 s (by simp)).2 k
  have h2 := (h.1 t (by simp)).2 k
  omega

theorem running_ok (r : PShape) (L : List PShape) (u : PShape) :
    running expandAndBroadcast2 r L = .ok u ↔ IsBroadcastOfAll (r :: L) u := by
  induction L generalizing r with
  | nil =>
    simp only [running, Except.ok.injEq]
    have := isBroadcastOf_iff r r u
    rw [← C27_result, C27_idem, Except.ok.injEq] at this
    rw [this]
    simp [IsBroadcastOfAll]
  | cons s L ih =>
    simp only [running, bind_ok_iff]
    constructor
    · rintro ⟨r', h, h'⟩
      rw [C27_result] at h
      exact (isBroadcastOfAll_cons h).1 ((ih _).1 h')
    · intro h
      obtain ⟨r', h'⟩ := (C27_succeeds r s).2 (isBroadcastOfAll_pair h)
      exact ⟨r', h', (ih _).2 ((isBroadcastOfAll_cons ((C27_result _ _ _).1 h')).2 h)⟩

/-- Any number of shapes: the running broadcast is the numpy broadcast of them all. -/
theorem C27_many (L : List PShape) (u : PShape) : expandAndBroadcast L = .ok u ↔ IsBroadcastOfAll L u := by
  match L with
  | [] => simp [expandAndBroadcast, IsBroadcastOfAll]
  | [x] => exact running_ok x [] u
  | x :: y :: xs => exact running_ok x (y :: xs) u

/-- In particular their order does not matter. -/
theorem C27_many_perm {L L' : List PShape} (h : L.Perm L') (u : PShape) :
    expandAndBroadcast L = .ok u ↔ expandAndBroadcast L' = .ok u := by
  rw [C27_many, C27_many]
  simp only [IsBroadcastOfAll, h.mem_iff]

/-- No shapes: ValueError; at least one: the shape or RuntimeError. -/
theorem C27_many_raises (L : List PShape) (e : Err) (h : expandAndBroadcast L = .error e) :
    (L = [] ∧ e = .value) ∨ (L ≠ [] ∧ e = .runtime) := by
  have key : ∀ (L : List PShape) (r : PShape), running expandAndBroadcast2 r L = .error e → e = .runtime := by
    intro L
    induction L with
    | nil => intro r h; simp [running] at h
    | cons s L ih =>
      intro r h
      simp only [running] at h
      cases h1 : expandAndBroadcast2 r s with
      | ok r' => rw [h1] at h; exact ih r' h
      | error e' =>
        rw [h1] at h
        have h2 : e' = e := by simpa [bind, Except.bind] using h
        subst h2
        rw [expandAndBroadcast2_eq] at h1
        split_ifs at h1; cases h1; rfl
  match L with
  | [] => left; simp [expandAndBroadcast] at h; exact ⟨rfl, h.symm⟩
  | [x] => simp [expandAndBroadcast] at h
  | x :: y :: xs => exact Or.inr ⟨by simp, key (y :: xs) x h⟩

/-- `broadcast` (without expansion) is the same on shapes of equal length and rejects others. -/
theorem C27_broadcast (s t u : PShape) : broadcast2 s t = .ok u ↔ s.length = t.length ∧ IsBroadcastOf s t u := by
  rw [← C27_result]
  unfold broadcast2
  by_cases h : s.length = t.length
  · have h2 : 0 + s.length = t.length := by omega
    have := zipDims_pad_left h2
    rw [expandAndBroadcast2_eq, ← this]
    simp [h]
  · simp [h]

example : expandAndBroadcast [[2, 1], [3], [5, 1, 1]] = .ok [5, 2, 3] := by decide +kernel
example : expandAndBroadcast2 [2, 0] [2, 1] = .ok [2, 0] ∧ expandAndBroadcast2 [2, 3] [2] = .error .runtime ∧ compatible [4, 1] [5] = true := by
  decide +kernel
example : ¬ Broadcastable [2, 3] [2] := by
  rw [← C27_raises]; decide +kernel

end Verif.Py
