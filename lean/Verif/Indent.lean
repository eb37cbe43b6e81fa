/-
`indent`, `util.py` 13-23 (C42).  Strings are lists of characters.
-/
import Mathlib.Data.List.Basic

namespace Verif.Indent

/-- A string. -/
abbrev Str := List Char

/-- `x.replace(c, new)` for a one-character pattern. -/
def replace1 (c : Char) (new : Str) (x : Str) : Str := x.flatMap fun d => if d = c then new else [d]

/-- `indent(x, indentation)`, `util.py` 13-23. -/
def indent (x ind : Str) : Str := ind ++ replace1 '\n' ('\n' :: ind) x

/-! ### Specification: lines -/

/-- The lines of a string: `x.split("\n")`. -/
def lines : Str → List Str
  | [] => [[]]
  | c :: cs => if c = '\n' then [] :: lines cs else
    match lines cs with
    | l :: ls => (c :: l) :: ls
    | [] => [[c]]

/-- `"\n".join(ls)`. -/
def unlines : List Str → Str
  | [] => []
  | [l] => l
  | l :: l' :: ls => l ++ '\n' :: unlines (l' :: ls)

theorem lines_ne (x : Str) : lines x ≠ [] := by
  cases x with
  | nil => simp [lines]
  | cons c cs =>
    simp only [lines]
    split_ifs
    · simp
    · split <;> simp

/-- Splitting into lines and joining gives the string back. -/
theorem unlines_lines (x : Str) : unlines (lines x) = x := by
  induction x with
  | nil => rfl
  | cons c cs ih =>
    simp only [lines]
    split_ifs with h
    · subst h
      cases e : lines cs with
      | nil => exact absurd e (lines_ne cs)
      | cons l ls => rw [e] at ih; simp [unlines, ih]
    · cases e : lines cs with
      | nil => exact absurd e (lines_ne cs)
      | cons l ls =>
        rw [e] at ih
        cases ls with
        | nil => simpa [unlines] using ih
        | cons l' ls => simpa [unlines] using ih

/-- Joining lines without newlines and splitting gives the lines back. -/
theorem lines_unlines {ls : List Str} (h0 : ls ≠ []) (h : ∀ l ∈ ls, '\n' ∉ l) : lines (unlines ls) = ls := by
  have single : ∀ l : Str, '\n' ∉ l → lines l = [l] := by
    intro l
    induction l with
    | nil => intro _; rfl
    | cons c cs ih =>
      intro h
      simp only [List.mem_cons, not_or] at h
      simp [lines, ih h.2, Ne.symm h.1]
  have app : ∀ (l x : Str), '\n' ∉ l → lines (l ++ '\n' :: x) = l :: lines x := by
    intro l
    induction l with
    | nil => intro x _; simp [lines]
    | cons c cs ih =>
      intro x h
      simp only [List.mem_cons, not_or] at h
      simp [lines, ih x h.2, Ne.symm h.1]
  match ls with
  | [] => exact absurd rfl h0
  | [l] => exact single l (h l (by simp))
  | l :: l' :: ls =>
    rw [unlines, app l _ (h l (by simp)), lines_unlines (by simp) (fun m hm => h m (by simp at hm ⊢; tauto))]

theorem lines_no_newline (x : Str) : ∀ l ∈ lines x, '\n' ∉ l := by
  induction x with
  | nil => simp [lines]
  | cons c cs ih =>
    simp only [lines]
    split_ifs with h
    · intro l hl
      simp only [List.mem_cons] at hl
      rcases hl with rfl | hl
      · simp
      · exact ih l hl
    · cases e : lines cs with
      | nil => exact absurd e (lines_ne cs)
      | cons m ms =>
        rw [e] at ih
        intro l hl
        simp only [List.mem_cons] at hl
        rcases hl with rfl | hl
        · simp only [List.mem_cons, not_or]; exact ⟨Ne.symm h, ih m (by simp)⟩
        · exact ih l (by simp [hl])

/-! ### C42 -/

/-- C42.  Every line is prefixed with the indentation, and nothing else changes. -/
theorem C42_indent (x ind : Str) : indent x ind = unlines ((lines x).map (ind ++ ·)) := by
  have key : ∀ x : Str, ∀ l ls, lines x = l :: ls → unlines ((lines x).map (ind ++ ·)) = ind ++ replace1 '\n' ('\n' :: ind) x := by
    intro x
    induction x with
    | nil => intro l ls _; simp [lines, unlines, replace1]
    | cons c cs ih =>
      intro l ls _
      cases e : lines cs with
      | nil => exact absurd e (lines_ne cs)
      | cons m ms =>
        have ih := ih m ms e
        rw [e] at ih
        simp only [List.map_cons] at ih
        by_cases hc : c = '\n'
        · subst hc
          simp only [lines, if_true, e, List.map_cons, unlines]
          simp [ih, replace1]
        · simp only [lines, if_neg hc, e, List.map_cons, replace1, List.flatMap_cons]
          cases ms with
          | nil =>
            simp only [List.map_nil, unlines, replace1, List.append_cancel_left_eq] at ih
            simp [unlines, ih]
          | cons m' ms =>
            simp only [List.map_cons, unlines, replace1, List.append_assoc, List.append_cancel_left_eq] at ih
            simp [unlines, ih]
  cases e : lines x with
  | nil => exact absurd e (lines_ne x)
  | cons l ls => rw [← e, key x l ls e, indent]

/-- The lines of the result, for an indentation without newlines. -/
theorem C42_lines (x ind : Str) (h : '\n' ∉ ind) : lines (indent x ind) = (lines x).map (ind ++ ·) := by
  rw [C42_indent]
  refine lines_unlines (by simpa using lines_ne x) fun l hl => ?_
  simp only [List.mem_map] at hl
  obtain ⟨m, hm, rfl⟩ := hl
  simp only [List.mem_append, not_or]
  exact ⟨h, lines_no_newline x m hm⟩

/-- Removing the prefix from every line gives the string back. -/
theorem C42_dedent (x ind : Str) (h : '\n' ∉ ind) : unlines ((lines (indent x ind)).map (·.drop ind.length)) = x := by
  rw [C42_lines x ind h, List.map_map]
  have : ((fun l : Str => l.drop ind.length) ∘ fun l => ind ++ l) = id := by funext l; simp
  rw [this, List.map_id, unlines_lines]

example : indent "ab\n\nc".toList "  ".toList = "  ab\n  \n  c".toList := by decide

end Verif.Indent
