/-
`str(a)` and `repr(a)` of the matrix classes (C42).  Strings are lists of characters, as in `Indent`.
-/
import Verif.Indent
import Verif.Dtype
import Verif.Props01

set_option linter.unusedSectionVars false
set_option linter.unusedSimpArgs false

namespace Verif.Indent

/-! ### The formatting primitives of Python and LAB -/

/-- A decimal digit. -/
def digit (n : ℕ) : Char := Char.ofNat (48 + n)

/-- `str(n)` for a non-negative Python int. -/
def decStr (n : ℕ) : Str := if n < 10 then [digit n] else decStr (n / 10) ++ [digit (n % 10)]

/-- `str(z)` for a Python int. -/
def intStr : Int → Str
  | .ofNat n => decStr n
  | .negSucc n => '-' :: decStr (n + 1)

/-- `", ".join(map(str, ds))`. -/
def commaStr : List ℕ → Str
  | [] => []
  | [d] => decStr d
  | d :: e :: ds => decStr d ++ [',', ' '] ++ commaStr (e :: ds)

/-- `str(Shape(*ds))` of LAB: the display of the tuple of dimensions. -/
def tupStr : List ℕ → Str
  | [] => ['(', ')']
  | [d] => ['('] ++ decStr d ++ [',', ')']
  | ds => ['('] ++ commaStr ds ++ [')']

/-- White space for `str.strip`. -/
def isWs (c : Char) : Bool := c = ' ' || c = '\n' || c = '\t' || c = '\r' || c = '\x0b' || c = '\x0c'

/-- `x.strip()`. -/
def strip (x : Str) : Str := ((x.dropWhile isWs).reverse.dropWhile isWs).reverse

/-- `label + indent(body, " " * n).strip()`, the layout of one field in every `__repr__`. -/
def field (label : Str) (n : ℕ) (body : Str) : Str := label ++ strip (indent body (List.replicate n ' '))

/-! ### Reading the formatted numbers back -/

/-- The value of a digit. -/
def digVal (c : Char) : ℕ := c.toNat - 48

/-- Is `c` a decimal digit? -/
def isDig (c : Char) : Bool := 48 ≤ c.toNat && c.toNat < 58

/-- The numbers written in a string: the maximal runs of digits. -/
def nums (acc : Option ℕ) : Str → List ℕ
  | [] => acc.toList
  | c :: cs => if isDig c then nums (some (10 * acc.getD 0 + digVal c)) cs else acc.toList ++ nums none cs

theorem digit_ok : ∀ n < 10, isDig (digit n) = true ∧ digVal (digit n) = n := by decide

theorem decStr_dig (n : ℕ) : ∀ c ∈ decStr n, isDig c = true := by
  induction n using decStr.induct with
  | case1 n h =>
    rw [decStr, if_pos h]
    intro c hc
    rw [List.mem_singleton] at hc
    subst hc; exact (digit_ok n h).1
  | case2 n h ih =>
    rw [decStr, if_neg h]
    intro c hc
    rw [List.mem_append, List.mem_singleton] at hc
    rcases hc with hc | rfl
    · exact ih c hc
    · exact (digit_ok _ (Nat.mod_lt _ (by decide))).1

theorem decStr_ne (n : ℕ) : decStr n ≠ [] := by
  rw [decStr]; split_ifs <;> simp

theorem decStr_val (n : ℕ) : (decStr n).foldl (fun v c => 10 * v + digVal c) 0 = n := by
  induction n using decStr.induct with
  | case1 n h => rw [decStr, if_pos h]; simp [(digit_ok n h).2]
  | case2 n h ih =>
    rw [decStr, if_neg h, List.foldl_append, ih]
    simp only [List.foldl_cons, List.foldl_nil, (digit_ok _ (Nat.mod_lt n (by decide : 0 < 10))).2]
    exact Nat.div_add_mod n 10

theorem decStr_inj {m n : ℕ} (h : decStr m = decStr n) : m = n := by rw [← decStr_val m, ← decStr_val n, h]

theorem nums_some (x rest : Str) (hx : ∀ c ∈ x, isDig c = true) (a : ℕ) :
    nums (some a) (x ++ rest) = nums (some (x.foldl (fun v c => 10 * v + digVal c) a)) rest := by
  induction x generalizing a with
  | nil => rfl
  | cons c cs ih =>
    rw [List.cons_append, nums, if_pos (hx c (by simp)), ih (fun d hd => hx d (by simp [hd]))]
    rfl

theorem nums_dec (n : ℕ) (c : Char) (rest : Str) (hc : isDig c = false) : nums none (decStr n ++ c :: rest) = n :: nums none rest := by
  have hd := decStr_dig n
  have hv := decStr_val n
  cases e : decStr n with
  | nil => exact absurd e (decStr_ne n)
  | cons d ds =>
    rw [e] at hd hv
    rw [List.cons_append, nums, if_pos (hd d (by simp)), nums_some _ _ (fun x hx => hd x (by simp [hx]))]
    simp only [Option.getD_none, List.foldl_cons] at hv ⊢
    rw [hv, nums, if_neg (by simp [hc])]
    rfl

theorem nums_comma : ∀ (ds : List ℕ) (c : Char) (rest : Str), isDig c = false → ds ≠ [] → nums none (commaStr ds ++ c :: rest) = ds ++ nums none rest
  | [], _, _, _, h => absurd rfl h
  | [d], c, rest, hc, _ => by rw [commaStr, nums_dec d c rest hc]; rfl
  | d :: e :: ds, c, rest, hc, _ => by
    rw [commaStr, List.append_assoc, List.append_assoc, List.cons_append, nums_dec d ',' _ (by decide), List.cons_append, nums, if_neg (by decide),
      List.nil_append, nums_comma (e :: ds) c rest hc (by simp)]
    rfl

theorem nums_tup (ds : List ℕ) : nums none (tupStr ds) = ds := by
  match ds with
  | [] => decide
  | [d] =>
    rw [tupStr, List.append_assoc, List.cons_append, nums, if_neg (by decide), List.nil_append, nums_dec d ',' _ (by decide)]
    rfl
  | d :: e :: ds =>
    rw [tupStr, List.append_assoc, List.cons_append, nums, if_neg (by decide), List.nil_append, nums_comma _ _ _ (by decide) (by simp)]
    · simp [nums, show isDig ')' = false by decide]
    all_goals simp

theorem tupStr_inj {a b : List ℕ} (h : tupStr a = tupStr b) : a = b := by rw [← nums_tup a, ← nums_tup b, h]

/-- The characters of a formatted tuple. -/
def TupChar (c : Char) : Prop := isDig c = true ∨ c ∈ ['(', ')', ',', ' ']

theorem commaStr_char : ∀ (ds : List ℕ), ∀ c ∈ commaStr ds, TupChar c
  | [], c, hc => by simp [commaStr] at hc
  | [d], c, hc => Or.inl (decStr_dig d c hc)
  | d :: e :: ds, c, hc => by
    rw [commaStr, List.mem_append, List.mem_append] at hc
    rcases hc with (hc | hc) | hc
    · exact Or.inl (decStr_dig d c hc)
    · refine Or.inr ?_
      simp only [List.mem_cons, List.not_mem_nil, or_false] at hc ⊢
      rcases hc with rfl | rfl <;> simp
    · exact commaStr_char _ c hc

theorem tupStr_char (ds : List ℕ) : ∀ c ∈ tupStr ds, TupChar c := by
  have h1 : TupChar '(' := Or.inr (by simp)
  have h2 : TupChar ')' := Or.inr (by simp)
  have h3 : TupChar ',' := Or.inr (by simp)
  intro c hc
  match ds with
  | [] =>
    simp only [tupStr, List.mem_cons, List.not_mem_nil, or_false] at hc
    rcases hc with rfl | rfl <;> assumption
  | [d] =>
    simp only [tupStr, List.mem_append, List.mem_cons, List.not_mem_nil, or_false] at hc
    rcases hc with (rfl | hc) | rfl | rfl
    · exact h1
    · exact Or.inl (decStr_dig d c hc)
    · exact h3
    · exact h2
  | d :: e :: ds =>
    rw [tupStr, List.mem_append, List.mem_append, List.mem_singleton, List.mem_singleton] at hc
    · rcases hc with (rfl | hc) | rfl
      · exact h1
      · exact commaStr_char _ c hc
      · exact h2
    all_goals simp

theorem intStr_inj {a b : Int} (h : intStr a = intStr b) : a = b := by
  have nd : ∀ m n : ℕ, decStr m ≠ '-' :: decStr n := fun m n e =>
    absurd (decStr_dig m '-' (by rw [e]; simp)) (by decide)
  match a, b with
  | .ofNat m, .ofNat n => exact congrArg _ (decStr_inj h)
  | .ofNat m, .negSucc n => exact absurd h (nd _ _)
  | .negSucc m, .ofNat n => exact absurd h.symm (nd _ _)
  | .negSucc m, .negSucc n =>
    have := decStr_inj (List.cons.inj h).2
    rw [Nat.add_right_cancel this]

/-- Two strings cut at the first occurrence of a character. -/
theorem cut_inj {c : Char} {x y r s : Str} (hx : c ∉ x) (hy : c ∉ y) (h : x ++ c :: r = y ++ c :: s) : x = y ∧ r = s := by
  induction x generalizing y with
  | nil =>
    cases y with
    | nil => exact ⟨rfl, (List.cons.inj h).2⟩
    | cons d y => exact absurd (by simp [(List.cons.inj h).1]) hy
  | cons d x ih =>
    cases y with
    | nil => exact absurd (by simp [(List.cons.inj h).1]) hx
    | cons e y =>
      obtain ⟨rfl, h'⟩ := List.cons.inj h
      obtain ⟨rfl, hr⟩ := ih (fun hh => hx (by simp [hh])) (fun hh => hy (by simp [hh])) h'
      exact ⟨rfl, hr⟩

/-! ### Layout -/

/-- Every line after the first starts with a space. -/
def Hanging (x : Str) : Prop := ∀ u v, x = u ++ '\n' :: v → ∃ w, v = ' ' :: w

theorem Hanging.nil : Hanging [] := fun u v h => by simp at h

theorem hanging_of_noNewline {x : Str} (h : '\n' ∉ x) : Hanging x := fun u v e => absurd (by rw [e]; simp) h

theorem Hanging.append {x y : Str} (hx : Hanging x) (hy : Hanging y) : Hanging (x ++ y) := by
  intro u v e
  rcases List.append_eq_append_iff.1 e with ⟨w, rfl, h2⟩ | ⟨w, h1, h2⟩
  · exact hy w v h2
  · cases w with
    | nil => exact hy [] v (by simpa using h2.symm)
    | cons c w =>
      obtain ⟨rfl, rfl⟩ := List.cons.inj h2
      obtain ⟨w', hw⟩ := hx u w h1
      · exact ⟨w' ++ y, by rw [hw]; rfl⟩

theorem dropWhile_suffix (x : Str) : ∃ p, x = p ++ x.dropWhile isWs := ⟨x.takeWhile isWs, (List.takeWhile_append_dropWhile).symm⟩

/-- Stripping removes a prefix and a suffix, and leaves no line break at the end. -/
theorem strip_split (x : Str) : ∃ p q, x = p ++ strip x ++ q ∧ (strip x).getLast? ≠ some '\n' := by
  obtain ⟨p, hp⟩ := dropWhile_suffix x
  obtain ⟨q, hq⟩ := dropWhile_suffix (x.dropWhile isWs).reverse
  refine ⟨p, q.reverse, ?_, ?_⟩
  · have := congrArg List.reverse hq
    rw [List.reverse_reverse, List.reverse_append] at this
    rw [List.append_assoc]
    exact hp.trans (by rw [← show strip x ++ q.reverse = _ from this.symm])
  · rw [strip, List.getLast?_reverse]
    intro h
    have := List.head?_dropWhile_not isWs (x.dropWhile isWs).reverse
    rw [h] at this
    exact absurd this (by decide)

theorem strip_hanging {x : Str} (h : Hanging x) : Hanging (strip x) := by
  obtain ⟨p, q, e, hl⟩ := strip_split x
  intro u v hv
  obtain ⟨w, hw⟩ := h (p ++ u) (v ++ q) (by rw [e, hv]; simp)
  cases v with
  | nil => exact absurd (by rw [hv]; simp) hl
  | cons c v => exact ⟨v, by rw [(List.cons.inj hw).1]⟩

theorem indent_hanging (x : Str) (n : ℕ) : Hanging (indent x (List.replicate (n + 1) ' ')) := by
  have key : ∀ y : Str, Hanging (replace1 '\n' ('\n' :: List.replicate (n + 1) ' ') y) := by
    intro y
    induction y with
    | nil => exact Hanging.nil
    | cons c cs ih =>
      intro u v e
      rw [replace1, List.flatMap_cons] at e
      change _ ++ replace1 '\n' ('\n' :: List.replicate (n + 1) ' ') cs = _ at e
      rcases List.append_eq_append_iff.1 e with ⟨w, _, h2⟩ | ⟨w, h1, h2⟩
      · exact ih w v h2
      · cases w with
        | nil => exact ih [] v (by simpa using h2.symm)
        | cons d w =>
          obtain ⟨rfl, rfl⟩ := List.cons.inj h2
          split_ifs at h1 with hc
          · cases u with
            | nil =>
              obtain ⟨_, h1⟩ := List.cons.inj h1
              refine ⟨List.replicate n ' ' ++ replace1 '\n' ('\n' :: List.replicate (n + 1) ' ') cs, ?_⟩
              rw [← h1, List.replicate_succ]; rfl
            | cons a u =>
              obtain ⟨_, h1⟩ := List.cons.inj h1
              have : '\n' ∈ List.replicate (n + 1) ' ' := by rw [h1]; simp
              exact absurd (List.eq_of_mem_replicate this) (by decide)
          · have : '\n' ∈ [c] := by rw [h1]; simp
            exact absurd (List.mem_singleton.1 this).symm hc
  exact Hanging.append (hanging_of_noNewline fun h => absurd (List.eq_of_mem_replicate h) (by decide)) (key x)

theorem field_hanging {label : Str} (n : ℕ) (body : Str) (h : '\n' ∉ label) : Hanging (field label (n + 1) body) :=
  Hanging.append (hanging_of_noNewline h) (strip_hanging (indent_hanging body n))

end Verif.Indent

namespace Verif
open Indent

variable {K D : Type}

/-- What the display of arrays and data types looks like (numpy, wbml): `dtype_str` of a dtype, `util.py` 27-44; `wbml.out.format(x, False)` of an array and of
a string, `matrix.py` 137-152; `repr` of an array; and whether `LowRank` was given a right and a middle factor, `lowrank.py` 35-39. -/
structure Printer (K D : Type) [Zero K] where
  dname : D → Str
  fmt : TT K D → Str
  fmtStr : Str → Str
  npRepr : TT K D → Str
  given : TMat K D → Bool × Bool

section
variable [Zero K]

/-- `": batch="` -/
def sBatch : Str := ": batch=".toList
/-- `", shape="` -/
def sShape : Str := ", shape=".toList
/-- `", dtype="` -/
def sDtype : Str := ", dtype=".toList
/-- `", rank="` -/
def sRank : Str := ", rank=".toList
/-- `", axis="` -/
def sAxis : Str := ", axis=".toList

/-- The words for the classes in `__str__`: `matrix.py` 121, `constant.py` 45, 94, `diagonal.py` 44, `triangular.py` 31, 67, `lowrank.py` 107, `woodbury.py` 48,
`kronecker.py` 37, `tiledblocks.py` 64. -/
def className : Kind → Str
  | .zero => "zero matrix".toList
  | .dense => "dense matrix".toList
  | .diag => "diagonal matrix".toList
  | .const => "constant matrix".toList
  | .lt => "lower-triangular matrix".toList
  | .ut => "upper-triangular matrix".toList
  | .lr => "low-rank matrix".toList
  | .wb => "Woodbury matrix".toList
  | .kron => "Kronecker product".toList
  | .tiled => "tile of blocks".toList

/-- `str(a)`: `__str__` of every class (lines as for `className`), with `B.shape_batch`, `B.shape_matrix` and `B.dtype` of the matrix; LowRank also prints its
`rank` (`lowrank.py` 105-112), TiledBlocks its `axis`. Numbers and arrays are not matrices of the package. -/
def strM (δ : DEnv K D) (P : Printer K D) (a : TMat K D) : E Str :=
  match a.mat.kind with
  | none => .error .notFound
  | some k => do
    let bt ← shapeBatch a.mat
    let rc ← shapeMatrix a.mat
    let d ← dtypeM δ a
    let head := ['<'] ++ className k ++ sBatch ++ tupStr bt.reverse ++ sShape ++ tupStr [rc.1, rc.2]
    match a with
    | .lr _ _ m => do
      let s ← shapeMatrix m.mat
      return head ++ sDtype ++ P.dname d ++ sRank ++ decStr (min s.1 s.2) ++ ['>']
    | .tiled _ _ _ axis => return head ++ sAxis ++ intStr axis ++ sDtype ++ P.dname d ++ ['>']
    | _ => return head ++ sDtype ++ P.dname d ++ ['>']

/-- `str(self)[:-1] + "\n" + field + ... + ">"`: the common shape of the `__repr__` methods. -/
def reprBody (s : Str) (fs : List Str) : Str := s.dropLast ++ (fs.flatMap fun f => '\n' :: f) ++ ['>']

/-- `repr` of a LowRank from its `str` and the displays of its factors, `lowrank.py` 114-128. -/
def reprLR (g : Bool × Bool) (s xl xr xm : Str) : Str :=
  reprBody s ([field " left=".toList 6 xl] ++ (if g.2 then [field " middle=".toList 8 xm] else []) ++ (if g.1 then [field " right=".toList 7 xr] else []))

/-- `repr(block)` of a block of TiledBlocks: of an array, or of a matrix (already formatted). -/
def pyRepr (P : Printer K D) (a : TMat K D) (x : Str) : Str :=
  match a with
  | .num t => P.npRepr t
  | _ => x

/-- `repr_format(a)`, `matrix.py` 137-152: the display of an array, or `repr(a)` of a matrix: Dense `matrix.py` 127-134, Zero `constant.py` 51-52, Constant 101-108,
Diagonal `diagonal.py` 50-57, triangular `triangular.py` 37-44, 73-80, LowRank `lowrank.py` 114-128, Woodbury `woodbury.py` 54-64, Kronecker `kronecker.py` 43-53,
TiledBlocks `tiledblocks.py` 71-78. -/
def reprF (δ : DEnv K D) (P : Printer K D) : TMat K D → E Str
  | .num t => .ok (P.fmt t)
  | .zero d bt r c => strM δ P (.zero d bt r c)
  | .dense t => do return reprBody (← strM δ P (.dense t)) [field " mat=".toList 5 (P.fmt t)]
  | .diag t => do return reprBody (← strM δ P (.diag t)) [field " diag=".toList 6 (P.fmt t)]
  | .const t r c => do return reprBody (← strM δ P (.const t r c)) [field " const=".toList 7 (P.fmt t)]
  | .lt t => do return reprBody (← strM δ P (.lt t)) [field " mat=".toList 5 (P.fmt t)]
  | .ut t => do return reprBody (← strM δ P (.ut t)) [field " mat=".toList 5 (P.fmt t)]
  | .lr l r m => do
    let s ← strM δ P (.lr l r m)
    let xl ← reprF δ P l
    let xm ← reprF δ P m
    let xr ← reprF δ P r
    return reprLR (P.given (.lr l r m)) s xl xr xm
  | .wb d l r m => do
    let s ← strM δ P (.wb d l r m)
    let sd ← strM δ P (.diag d)
    let sl ← strM δ P (.lr l r m)
    let xl ← reprF δ P l
    let xm ← reprF δ P m
    let xr ← reprF δ P r
    return reprBody s [field " diag=".toList 6 (reprBody sd [field " diag=".toList 6 (P.fmt d)]),
      field " lr=".toList 4 (reprLR (P.given (.lr l r m)) sl xl xr xm)]
  | .kron l r => do
    let s ← strM δ P (.kron l r)
    let xl ← reprF δ P l
    let xr ← reprF δ P r
    return reprBody s [field " left=".toList 6 xl, field " right=".toList 7 xr]
  | .tiled n blk reps axis => do
    let s ← strM δ P (.tiled n blk reps axis)
    let xs ← seqFin fun i => reprF δ P (blk i)
    return reprBody s ((List.ofFn fun i => [" <block: reps=".toList ++ decStr (reps i),
      field "  matrix=".toList 10 (P.fmtStr (pyRepr P (blk i) (xs i)))]).flatten)

end

/-! ### C42: what is displayed -/

section
variable [Field K] [LinearOrder K]

/-- Every part of a valid matrix has a data type. -/
theorem dtypeM_some (δ : DEnv K D) {a : TMat K D} (ha : a.mat.Valid) : ∃ d, dtypeM δ a = .ok d := by
  obtain ⟨S, ha⟩ := ha
  induction a generalizing S with
  | lr l r m hl hr hm =>
    obtain ⟨⟨wl, wr, wm⟩, _⟩ := ha
    obtain ⟨dl, el⟩ := hl _ wl
    obtain ⟨dr, er⟩ := hr _ wr
    obtain ⟨dm, em⟩ := hm _ wm
    exact ⟨_, by simp only [dtypeM, el, er, em, promoteL]; rfl⟩
  | wb d l r m hl hr hm =>
    obtain ⟨_, ⟨wl, wr, wm⟩, _⟩ := ha
    obtain ⟨dl, el⟩ := hl _ wl
    obtain ⟨dr, er⟩ := hr _ wr
    obtain ⟨dm, em⟩ := hm _ wm
    exact ⟨_, by simp only [dtypeM, el, er, em, promoteL]; rfl⟩
  | kron l r hl hr =>
    obtain ⟨⟨wl, wr⟩, _⟩ := ha
    obtain ⟨dl, el⟩ := hl _ wl
    obtain ⟨dr, er⟩ := hr _ wr
    exact ⟨_, by simp only [dtypeM, el, er, promoteL]; rfl⟩
  | tiled n blk reps axis ih =>
    obtain ⟨k, _, hn, _, hw, _⟩ := ha
    choose ds hds using fun i => ih i _ (hw i)
    have es : seqFin (fun i => dtypeM δ (blk i)) = .ok ds := seqFin_ok.2 hds
    obtain ⟨n, rfl⟩ := Nat.exists_eq_succ_of_ne_zero hn
    exact ⟨_, by simp only [dtypeM, es, bind, Except.bind, List.ofFn_succ, promoteL]; rfl⟩
  | _ => exact ⟨_, rfl⟩

/-- The tail of `str(a)` after the shape: the data type, and the rank of a LowRank or the axis of a TiledBlocks. -/
def strTail (P : Printer K D) (a : TMat K D) (d : D) : Str :=
  match a with
  | .lr _ _ m => sDtype ++ P.dname d ++ sRank ++ decStr (min (den m.mat).rows (den m.mat).cols) ++ ['>']
  | .tiled _ _ _ axis => sAxis ++ intStr axis ++ sDtype ++ P.dname d ++ ['>']
  | _ => sDtype ++ P.dname d ++ ['>']

theorem strM_eq (δ : DEnv K D) (P : Printer K D) {a : TMat K D} (ha : a.mat.Valid) {k : Kind} (hk : a.mat.kind = some k) {d : D} (hd : dtypeM δ a = .ok d) :
    strM δ P a = .ok (['<'] ++ className k ++ sBatch ++ tupStr (den a.mat).bt.reverse ++ sShape ++
      tupStr [(den a.mat).rows, (den a.mat).cols] ++ strTail P a d) := by
  have h1 := ha.own.shapeBatch
  have h2 := ha.own.shapeMatrix
  cases a with
  | num t => simp [TMat.mat, Mat.kind] at hk
  | lr l r m =>
    obtain ⟨S, ⟨wl, wr, wm⟩, _⟩ := ha
    have h3 := wm.shapeMatrix
    simp only [strM, hk, h1, h2, hd, h3, bind, Except.bind, pure, Except.pure, strTail, List.append_assoc]
  | _ => simp only [strM, hk, h1, h2, hd, bind, Except.bind, pure, Except.pure, strTail, List.append_assoc]

theorem tupChar_not {c : Char} (h : isDig c = false ∧ c ∉ ['(', ')', ',', ' ']) (ds : List ℕ) : c ∉ tupStr ds := fun hc => by
  rcases tupStr_char ds c hc with h' | h'
  · rw [h.1] at h'; cases h'
  · exact h.2 h'

theorem dec_not {c : Char} (h : isDig c = false) (n : ℕ) : c ∉ decStr n := fun hc => by
  have := decStr_dig n c hc
  rw [h] at this; cases this

theorem int_not {c : Char} (h : isDig c = false) (h' : c ≠ '-') (z : Int) : c ∉ intStr z := by
  cases z with
  | ofNat n => exact dec_not h n
  | negSucc n =>
    intro hc
    rcases List.mem_cons.1 hc with hc | hc
    · exact h' hc
    · exact dec_not h _ hc

theorem className_not : ∀ k : Kind, ':' ∉ className k ∧ '\n' ∉ className k := by
  intro k; cases k <;> decide

theorem className_inj : ∀ j k : Kind, className j = className k → j = k := by
  intro j k; cases j <;> cases k <;> decide

theorem strTail_noNewline (P : Printer K D) (hP : ∀ d, '\n' ∉ P.dname d) (a : TMat K D) (d : D) : '\n' ∉ strTail P a d ∧ (strTail P a d).getLast? = some '>' := by
  have h1 : '\n' ∉ sDtype ∧ '\n' ∉ sRank ∧ '\n' ∉ sAxis := by decide
  have h2 := hP d
  have h3 : ∀ n, '\n' ∉ decStr n := dec_not (by decide)
  have h4 : ∀ z, '\n' ∉ intStr z := int_not (by decide) (by decide)
  have h5 : '\n' ∉ ['>'] := by decide
  obtain ⟨h6, h7, h8⟩ := h1
  cases a <;> refine ⟨?_, by simp only [strTail, List.getLast?_append, List.getLast?_singleton, Option.some_or]⟩ <;>
    simp only [strTail, List.mem_append, not_or, h2, h3, h4, h5, h6, h7, h8, not_false_eq_true, and_self]

/-- C42.  Displaying a matrix of the package never fails, and gives one line in angle brackets. -/
theorem C42_str (δ : DEnv K D) (P : Printer K D) (hP : ∀ d, '\n' ∉ P.dname d) {a : TMat K D} (ha : a.mat.Valid) (hm : a.mat.isAM = true) :
    ∃ s, strM δ P a = .ok s ∧ s.head? = some '<' ∧ s.getLast? = some '>' ∧ '\n' ∉ s := by
  obtain ⟨d, hd⟩ := dtypeM_some δ ha
  obtain ⟨k, hk⟩ : ∃ k, a.mat.kind = some k := by
    cases h : a.mat <;> first | exact ⟨_, rfl⟩ | (rw [h] at hm; cases hm)
  obtain ⟨t1, t2⟩ := strTail_noNewline P hP a d
  refine ⟨_, strM_eq δ P ha hk hd, by simp only [List.append_assoc, List.cons_append, List.head?_cons], ?_, ?_⟩
  · rw [List.getLast?_append, t2]; rfl
  · have h1 : '\n' ∉ sBatch ∧ '\n' ∉ sShape ∧ '\n' ∉ ['<'] := by decide
    have h2 : ∀ ds, '\n' ∉ tupStr ds := tupChar_not (by decide)
    simp only [List.mem_append, not_or, h1, h2, (className_not k).2, t1, not_false_eq_true, and_self]

/-- C42.  The one-line display tells the class, the batch shape, the matrix shape and the data type (by name) of a matrix apart: two matrices with the same
display agree in all of them. -/
theorem C42_str_faithful (δ : DEnv K D) (P : Printer K D) (hP : ∀ d, ',' ∉ P.dname d ∧ '>' ∉ P.dname d) {a b : TMat K D} (ha : a.mat.Valid) (hb : b.mat.Valid)
    {s : Str} (h1 : strM δ P a = .ok s) (h2 : strM δ P b = .ok s) :
    a.mat.kind = b.mat.kind ∧ (den a.mat).bt = (den b.mat).bt ∧ (den a.mat).rows = (den b.mat).rows ∧ (den a.mat).cols = (den b.mat).cols ∧
      ∃ d e, dtypeM δ a = .ok d ∧ dtypeM δ b = .ok e ∧ P.dname d = P.dname e := by
  obtain ⟨d, hd⟩ := dtypeM_some δ ha
  obtain ⟨e, he⟩ := dtypeM_some δ hb
  have hka : ∃ k, a.mat.kind = some k := by
    cases h : a.mat.kind with
    | none => simp only [strM, h] at h1; cases h1
    | some k => exact ⟨k, rfl⟩
  have hkb : ∃ k, b.mat.kind = some k := by
    cases h : b.mat.kind with
    | none => simp only [strM, h] at h2; cases h2
    | some k => exact ⟨k, rfl⟩
  obtain ⟨ka, hka⟩ := hka
  obtain ⟨kb, hkb⟩ := hkb
  rw [strM_eq δ P ha hka hd] at h1
  rw [strM_eq δ P hb hkb he] at h2
  have h := (Except.ok.inj h1).trans (Except.ok.inj h2).symm
  simp only [List.append_assoc, List.cons_append, List.nil_append, List.cons.injEq, true_and] at h
  -- the class
  rw [show sBatch = ':' :: " batch=".toList from by decide] at h
  simp only [List.cons_append] at h
  obtain ⟨hc, h'⟩ := cut_inj (className_not ka).1 (className_not kb).1 h
  clear h
  have hkk := className_inj _ _ hc
  subst hkk
  have h := List.append_cancel_left h'
  clear h'
  -- the batch shape
  have cutS : ∀ (x y : List ℕ) (r t : Str), tupStr x ++ (sShape ++ r) = tupStr y ++ (sShape ++ t) → x = y ∧ r = t := by
    intro x y r t h
    rw [show sShape = [',', ' '] ++ 's' :: "hape=".toList from by decide] at h
    have e : ∀ (z : Str) (w : Str), z ++ ([',', ' '] ++ 's' :: "hape=".toList ++ w) = (z ++ [',', ' ']) ++ 's' :: ("hape=".toList ++ w) := by
      intro z w; simp only [List.append_assoc, List.cons_append]
    rw [e, e] at h
    have ns : ∀ z : List ℕ, 's' ∉ tupStr z ++ [',', ' '] := fun z hz => by
      rcases List.mem_append.1 hz with hz | hz
      · exact tupChar_not (by decide) z hz
      · exact absurd hz (by decide)
    obtain ⟨h1, h2⟩ := cut_inj (ns x) (ns y) h
    exact ⟨tupStr_inj (List.append_cancel_right h1), List.append_cancel_left h2⟩
  obtain ⟨hb1, h⟩ := cutS _ _ _ _ h
  -- the tail, for each class
  have cutD : ∀ (c : Char) (w : Str), (isDig c = false ∧ c ∉ ['(', ')', ',', ' ']) → ∀ (x y : List ℕ) (r t : Str),
      tupStr x ++ ([',', ' '] ++ c :: w ++ r) = tupStr y ++ ([',', ' '] ++ c :: w ++ t) → x = y ∧ r = t := by
    intro c w hc x y r t h
    have e : ∀ (z : Str) (v : Str), z ++ ([',', ' '] ++ c :: w ++ v) = (z ++ [',', ' ']) ++ c :: (w ++ v) := by
      intro z v; simp only [List.append_assoc, List.cons_append]
    rw [e, e] at h
    have ns : ∀ z : List ℕ, c ∉ tupStr z ++ [',', ' '] := fun z hz => by
      rcases List.mem_append.1 hz with hz | hz
      · exact tupChar_not hc z hz
      · exact hc.2 (by simp only [List.mem_cons, List.not_mem_nil, or_false] at hz ⊢; rcases hz with rfl | rfl <;> simp)
    obtain ⟨h1, h2⟩ := cut_inj (ns x) (ns y) h
    exact ⟨tupStr_inj (List.append_cancel_right h1), List.append_cancel_left h2⟩
  have fin : ∀ (ra ca rb cb : ℕ), [ra, ca] = [rb, cb] → P.dname d = P.dname e → (den a.mat).rows = ra → (den a.mat).cols = ca → (den b.mat).rows = rb →
      (den b.mat).cols = cb → a.mat.kind = b.mat.kind ∧ (den a.mat).bt = (den b.mat).bt ∧ (den a.mat).rows = (den b.mat).rows ∧
        (den a.mat).cols = (den b.mat).cols ∧ ∃ d e, dtypeM δ a = .ok d ∧ dtypeM δ b = .ok e ∧ P.dname d = P.dname e := by
    intro ra ca rb cb h hde e1 e2 e3 e4
    have hr := (List.cons.inj h).1
    have hcs := (List.cons.inj (List.cons.inj h).2).1
    exact ⟨hka.trans hkb.symm, List.reverse_injective hb1, by rw [e1, e3, hr], by rw [e2, e4, hcs], d, e, hd, he, hde⟩
  have eD : sDtype = [',', ' '] ++ 'd' :: "type=".toList := by decide
  have eA : sAxis = [',', ' '] ++ 'a' :: "xis=".toList := by decide
  have eR : sRank = ',' :: " rank=".toList := by decide
  have plain : tupStr [(den a.mat).rows, (den a.mat).cols] ++ (sDtype ++ P.dname d ++ ['>']) = tupStr [(den b.mat).rows, (den b.mat).cols] ++ (sDtype ++ P.dname e ++ ['>']) →
      a.mat.kind = b.mat.kind ∧ (den a.mat).bt = (den b.mat).bt ∧ (den a.mat).rows = (den b.mat).rows ∧
        (den a.mat).cols = (den b.mat).cols ∧ ∃ d e, dtypeM δ a = .ok d ∧ dtypeM δ b = .ok e ∧ P.dname d = P.dname e := by
    intro h
    rw [eD, List.append_assoc _ (P.dname d), List.append_assoc _ (P.dname e)] at h
    obtain ⟨h1, h2⟩ := cutD 'd' _ (by decide) _ _ _ _ h
    exact fin _ _ _ _ h1 (List.append_cancel_right h2) rfl rfl rfl rfl
  cases a with
  | num t => cases hka
  | lr l r m =>
    cases b with
    | lr l' r' m' =>
      simp only [strTail, List.append_assoc] at h
      rw [eD] at h
      obtain ⟨h1, h2⟩ := cutD 'd' _ (by decide) _ _ _ _ h
      rw [eR, List.cons_append, List.cons_append] at h2
      exact fin _ _ _ _ h1 (cut_inj (hP d).1 (hP e).1 h2).1 rfl rfl rfl rfl
    | _ => cases hka; cases hkb
  | tiled n blk reps axis =>
    cases b with
    | tiled n' blk' reps' axis' =>
      simp only [strTail, List.append_assoc] at h
      rw [eA] at h
      obtain ⟨h1, h2⟩ := cutD 'a' _ (by decide) _ _ _ _ h
      rw [eD] at h2
      simp only [List.append_assoc, List.cons_append, List.nil_append] at h2
      have h3 := (cut_inj (int_not (by decide) (by decide) _) (int_not (by decide) (by decide) _) h2).2
      have h4 := List.append_cancel_left (List.cons.inj (List.cons.inj h3).2).2
      exact fin _ _ _ _ h1 (List.append_cancel_right h4) rfl rfl rfl rfl
    | _ => cases hka; cases hkb
  | _ =>
    cases b <;> first | exact plain h | (cases hka; cases hkb)

theorem hanging_fields {fs : List Str} (h : ∀ f ∈ fs, Hanging f ∧ f.head? = some ' ') : Hanging (fs.flatMap fun f => '\n' :: f) := by
  induction fs with
  | nil => exact Hanging.nil
  | cons f fs ih =>
    rw [List.flatMap_cons]
    refine Hanging.append ?_ (ih fun g hg => h g (by simp [hg]))
    obtain ⟨hf, hh⟩ := h f (by simp)
    cases f with
    | nil => cases hh
    | cons c f =>
      rw [List.head?_cons, Option.some.injEq] at hh
      subst hh
      intro u v e
      cases u with
      | nil => exact ⟨f, (List.cons.inj e).2.symm⟩
      | cons x u => exact hf u v (List.cons.inj e).2

theorem reprBody_ok {s : Str} {fs : List Str} (hs : '\n' ∉ s) (h : ∀ f ∈ fs, Hanging f ∧ f.head? = some ' ') :
    s.dropLast <+: reprBody s fs ∧ (reprBody s fs).getLast? = some '>' ∧ Hanging (reprBody s fs) := by
  refine ⟨⟨(fs.flatMap fun f => '\n' :: f) ++ ['>'], by rw [reprBody, List.append_assoc]⟩, ?_, ?_⟩
  · simp only [reprBody, List.getLast?_append, List.getLast?_singleton, Option.some_or]
  · exact Hanging.append (Hanging.append (hanging_of_noNewline fun hh => hs (List.mem_of_mem_dropLast hh)) (hanging_fields h))
      (hanging_of_noNewline (by decide))

theorem field_ok {label : Str} {w : Str} (hl : label = ' ' :: w) (h : '\n' ∉ label) (n : ℕ) (body : Str) :
    Hanging (field label (n + 1) body) ∧ (field label (n + 1) body).head? = some ' ' := by
  refine ⟨field_hanging n body h, ?_⟩
  rw [field, hl]; rfl

/-- C42.  The full display of a matrix never fails: it starts with the one-line display (up to its closing bracket), ends with the closing bracket, and every
further line starts with a space, whatever the displays of the arrays look like. -/
theorem C42_repr (δ : DEnv K D) (P : Printer K D) (hP : ∀ d, '\n' ∉ P.dname d) {a : TMat K D} (ha : a.mat.Valid) (hm : a.mat.isAM = true) :
    ∃ s r, strM δ P a = .ok s ∧ reprF δ P a = .ok r ∧ s.dropLast <+: r ∧ r.getLast? = some '>' ∧
      ∀ u v, r = u ++ '\n' :: v → ∃ w, v = ' ' :: w := by
  have total : ∀ {a : TMat K D} {S : Shp}, a.mat.WF S → ∃ r, reprF δ P a = .ok r := by
    intro a
    induction a with
    | num t => intro S _; exact ⟨_, rfl⟩
    | lr l r m hl hr hm =>
      intro S h
      obtain ⟨s, hs, _⟩ := C42_str δ P hP ⟨S, h⟩ rfl
      obtain ⟨⟨wl, wr, wm⟩, _⟩ := h
      obtain ⟨xl, el⟩ := hl wl
      obtain ⟨xr, er⟩ := hr wr
      obtain ⟨xm, em⟩ := hm wm
      exact ⟨_, by simp only [reprF, hs, el, er, em]; rfl⟩
    | wb d l r m hl hr hm =>
      intro S h
      obtain ⟨s, hs, _⟩ := C42_str δ P hP ⟨S, h⟩ rfl
      have hd : (TMat.diag d).mat.Valid := ⟨S, h.1⟩
      have hlr : (TMat.lr l r m).mat.Valid := ⟨S, h.2.1, h.2.2.1, h.2.2.2.1⟩
      obtain ⟨sd, hsd, _⟩ := C42_str δ P hP hd rfl
      obtain ⟨sl, hsl, _⟩ := C42_str δ P hP hlr rfl
      obtain ⟨_, ⟨wl, wr, wm⟩, _⟩ := h
      obtain ⟨xl, el⟩ := hl wl
      obtain ⟨xr, er⟩ := hr wr
      obtain ⟨xm, em⟩ := hm wm
      exact ⟨_, by simp only [reprF, hs, hsd, hsl, el, er, em]; rfl⟩
    | kron l r hl hr =>
      intro S h
      obtain ⟨s, hs, _⟩ := C42_str δ P hP ⟨S, h⟩ rfl
      obtain ⟨⟨wl, wr⟩, _⟩ := h
      obtain ⟨xl, el⟩ := hl wl
      obtain ⟨xr, er⟩ := hr wr
      exact ⟨_, by simp only [reprF, hs, el, er]; rfl⟩
    | tiled n blk reps axis ih =>
      intro S h
      obtain ⟨s, hs, _⟩ := C42_str δ P hP ⟨S, h⟩ rfl
      obtain ⟨k, _, hn, _, hw, _⟩ := h
      choose xs hxs using fun i => ih i (hw i)
      have es : seqFin (fun i => reprF δ P (blk i)) = .ok xs := seqFin_ok.2 hxs
      exact ⟨_, by simp only [reprF, hs, es]; rfl⟩
    | _ =>
      intro S h
      obtain ⟨s, hs, _⟩ := C42_str δ P hP ⟨S, h⟩ rfl
      exact ⟨_, by simp only [reprF, hs]; rfl⟩
  obtain ⟨s, hs, _, h2, h3⟩ := C42_str δ P hP ha hm
  obtain ⟨S, hw⟩ := ha
  obtain ⟨r, hr⟩ := total hw
  refine ⟨s, r, hs, hr, ?_⟩
  have f5 : ∀ n b, Hanging (field " mat=".toList (n + 1) b) ∧ (field " mat=".toList (n + 1) b).head? = some ' ' := field_ok (w := "mat=".toList) (by decide) (by decide)
  have f6 : ∀ n b, Hanging (field " diag=".toList (n + 1) b) ∧ (field " diag=".toList (n + 1) b).head? = some ' ' := field_ok (w := "diag=".toList) (by decide) (by decide)
  have f7 : ∀ n b, Hanging (field " const=".toList (n + 1) b) ∧ (field " const=".toList (n + 1) b).head? = some ' ' := field_ok (w := "const=".toList) (by decide) (by decide)
  have fl : ∀ n b, Hanging (field " left=".toList (n + 1) b) ∧ (field " left=".toList (n + 1) b).head? = some ' ' := field_ok (w := "left=".toList) (by decide) (by decide)
  have fr : ∀ n b, Hanging (field " right=".toList (n + 1) b) ∧ (field " right=".toList (n + 1) b).head? = some ' ' := field_ok (w := "right=".toList) (by decide) (by decide)
  have fm : ∀ n b, Hanging (field " middle=".toList (n + 1) b) ∧ (field " middle=".toList (n + 1) b).head? = some ' ' := field_ok (w := "middle=".toList) (by decide) (by decide)
  have flr : ∀ n b, Hanging (field " lr=".toList (n + 1) b) ∧ (field " lr=".toList (n + 1) b).head? = some ' ' := field_ok (w := "lr=".toList) (by decide) (by decide)
  have fx : ∀ n b, Hanging (field "  matrix=".toList (n + 1) b) ∧ (field "  matrix=".toList (n + 1) b).head? = some ' ' := field_ok (w := " matrix=".toList) (by decide) (by decide)
  have one : ∀ {f : Str}, (Hanging f ∧ f.head? = some ' ') → ∀ g ∈ [f], Hanging g ∧ g.head? = some ' ' := fun h g hg => List.mem_singleton.1 hg ▸ h
  have two : ∀ {f f' : Str}, (Hanging f ∧ f.head? = some ' ') → (Hanging f' ∧ f'.head? = some ' ') → ∀ g ∈ [f, f'], Hanging g ∧ g.head? = some ' ' := by
    intro f f' h h' g hg
    rcases List.mem_cons.1 hg with rfl | hg
    · exact h
    · exact List.mem_singleton.1 hg ▸ h'
  cases a with
  | num t => cases hm
  | zero d bt rr cc =>
    rw [show reprF δ P (.zero d bt rr cc) = strM δ P (.zero d bt rr cc) from rfl, hs] at hr
    cases hr
    exact ⟨List.dropLast_prefix s, h2, hanging_of_noNewline h3⟩
  | dense t => simp only [reprF, hs] at hr; cases hr; exact reprBody_ok h3 (one (f5 4 _))
  | diag t => simp only [reprF, hs] at hr; cases hr; exact reprBody_ok h3 (one (f6 5 _))
  | const t rr cc => simp only [reprF, hs] at hr; cases hr; exact reprBody_ok h3 (one (f7 6 _))
  | lt t => simp only [reprF, hs] at hr; cases hr; exact reprBody_ok h3 (one (f5 4 _))
  | ut t => simp only [reprF, hs] at hr; cases hr; exact reprBody_ok h3 (one (f5 4 _))
  | lr l r' m =>
    simp only [reprF, hs, bind_ok_iff, pure_eq_ok] at hr
    obtain ⟨_, e, xl, _, xm, _, xr, _, rfl⟩ := hr
    cases e
    refine reprBody_ok h3 fun f hf => ?_
    simp only [List.mem_append, List.mem_singleton] at hf
    rcases hf with (rfl | hf) | hf
    · exact fl 5 _
    · split_ifs at hf
      · exact List.mem_singleton.1 hf ▸ fm 7 _
      · cases hf
    · split_ifs at hf
      · exact List.mem_singleton.1 hf ▸ fr 6 _
      · cases hf
  | wb d l r' m =>
    simp only [reprF, hs, bind_ok_iff, pure_eq_ok] at hr
    obtain ⟨_, e, sd, _, sl, _, xl, _, xm, _, xr, _, rfl⟩ := hr
    cases e
    exact reprBody_ok h3 (two (f6 5 _) (flr 3 _))
  | kron l r' =>
    simp only [reprF, hs, bind_ok_iff, pure_eq_ok] at hr
    obtain ⟨_, e, xl, _, xr, _, rfl⟩ := hr
    cases e
    exact reprBody_ok h3 (two (fl 5 _) (fr 6 _))
  | tiled n blk reps axis =>
    simp only [reprF, hs, bind_ok_iff, pure_eq_ok] at hr
    obtain ⟨_, e, xs, _, rfl⟩ := hr
    cases e
    refine reprBody_ok h3 fun f hf => ?_
    obtain ⟨g, hg, hf⟩ := List.mem_flatten.1 hf
    obtain ⟨i, rfl⟩ := List.mem_ofFn.1 hg
    have fb : Hanging (" <block: reps=".toList ++ decStr (reps i)) ∧ (" <block: reps=".toList ++ decStr (reps i)).head? = some ' ' := by
      refine ⟨hanging_of_noNewline fun h => ?_, ?_⟩
      · rcases List.mem_append.1 h with h | h
        · exact absurd h (by decide)
        · exact dec_not (by decide) _ h
      · rw [show " <block: reps=".toList = ' ' :: "<block: reps=".toList from by decide]; rfl
    exact two fb (fx 9 _) f hf

/-- C42.  `repr` of a LowRank matrix: its `str` and the left factor, then the middle and the right factor each exactly if it was given to the constructor. -/
theorem C42_repr_lowrank (δ : DEnv K D) (P : Printer K D) {l r m : TMat K D} {s xl xm xr x : Str} {right middle : Bool} (hg : P.given (.lr l r m) = (right, middle))
    (hs : strM δ P (.lr l r m) = .ok s) (hl : reprF δ P l = .ok xl) (hm : reprF δ P m = .ok xm) (hr : reprF δ P r = .ok xr) (h : reprF δ P (.lr l r m) = .ok x) :
    x = s.dropLast ++ "\n left=".toList ++ strip (indent xl "      ".toList) ++ (if middle then "\n middle=".toList ++ strip (indent xm "        ".toList) else []) ++
      (if right then "\n right=".toList ++ strip (indent xr "       ".toList) else []) ++ ">".toList := by
  simp only [reprF, hs, hl, hm, hr, hg] at h
  have h : reprLR (right, middle) s xl xr xm = x := Except.ok.inj h
  subst h
  cases right <;> cases middle <;> simp [reprLR, reprBody, field, List.replicate]

end

/-! ### Examples -/

namespace Ex.Show
open Ex

/-- Two data types, `float32` and `float64`. -/
def δ : DEnv ℚ Bool := ⟨(· || ·), fun _ x => x⟩
/-- A printer that shows the arrays as a two-line text. -/
def P : Printer ℚ Bool := ⟨fun d => if d then "float64".toList else "float32".toList, fun _ => "[[1. 2.]\n [3. 4.]]".toList, fun x => x, fun _ => "array".toList,
  fun _ => (false, true)⟩

def dn : TMat ℚ Bool := .dense ⟨true, mkMat [3] 2 2 fun _ i j => i + j⟩
def lo : TMat ℚ Bool := .lr (.num ⟨false, mkMat [] 4 2 fun _ _ _ => 1⟩) (.num ⟨false, mkMat [] 5 2 fun _ _ _ => 1⟩) dn
example : strM δ P lo = .ok "<low-rank matrix: batch=(3,), shape=(4, 5), dtype=float64, rank=2>".toList := by decide +kernel
example : reprF δ P lo = .ok ("<low-rank matrix: batch=(3,), shape=(4, 5), dtype=float64, rank=2\n left=[[1. 2.]\n       [3. 4.]]\n" ++
  " middle=<dense matrix: batch=(3,), shape=(2, 2), dtype=float64\n         mat=[[1. 2.]\n              [3. 4.]]>>").toList := by decide +kernel
def kr : TMat ℚ Bool := .kron dn (.zero false [] 1 12)

example : strM δ P kr = .ok "<Kronecker product: batch=(3,), shape=(2, 24), dtype=float64>".toList := by decide +kernel
example : reprF δ P kr = .ok ("<Kronecker product: batch=(3,), shape=(2, 24), dtype=float64\n left=<dense matrix: batch=(3,), shape=(2, 2), dtype=float64\n" ++
  "       mat=[[1. 2.]\n            [3. 4.]]>\n right=<zero matrix: batch=(), shape=(1, 12), dtype=float32>>").toList := by decide +kernel
theorem kr_valid : kr.mat.Valid := ⟨[3], ⟨⟨by decide, Fits.refl _⟩, Fits.nil _⟩, by decide, by decide⟩
example : ∃ s r, strM δ P kr = .ok s ∧ reprF δ P kr = .ok r ∧ s.dropLast <+: r ∧ r.getLast? = some '>' ∧ ∀ u v, r = u ++ '\n' :: v → ∃ w, v = ' ' :: w :=
  C42_repr δ P (by decide) kr_valid rfl
example : (∀ d, '\n' ∉ P.dname d) ∧ ∀ d, ',' ∉ P.dname d ∧ '>' ∉ P.dname d := by decide

end Ex.Show

end Verif
