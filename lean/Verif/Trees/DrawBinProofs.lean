import Verif.Trees.DrawTreeProofs
import Mathlib.Data.List.TakeWhile

/-!
# Helper lemmas for the drawing of `BinaryTree`
-/

namespace Extra
variable {V : Type}

/-! ## The specification -/

/-- the character in a line and column; blank outside of the text -/
def charAt (lines : List (List Char)) (r c : Nat) : Char := ((lines[r]?).getD [])[c]?.getD ' '

/-- the middle of a label of `n` characters that starts in column `c` -/
def middle (c n : Nat) : Nat := (2 * c + n - 1) / 2

/-- what should be drawn in row `r` and column `c`, if the label of the node at path `p` starts in column
`col p`: the labels of the nodes of depth `d` are in row `2 * d`, with bars towards their children, and
row `2 * d + 1` has the branches -/
inductive Ink (rep : V → List Char) (t : BTree V) (col : List Bool → Nat) : Nat → Nat → Char → Prop
  | label {p v i ch} (h : t.at p = some v) (hi : (rep v)[i]? = some ch) :
      Ink rep t col (2 * p.length) (col p + i) ch
  | left {p v c} (h : t.at (p ++ [false]) = some v)
      (h1 : middle (col (p ++ [false])) (rep v).length + 1 < c) (h2 : c < col p) :
      Ink rep t col (2 * p.length) c '_'
  | slash {p v} (h : t.at (p ++ [false]) = some v) :
      Ink rep t col (2 * p.length + 1) (middle (col (p ++ [false])) (rep v).length + 1) '/'
  | right {p u v c} (hu : t.at p = some u) (h : t.at (p ++ [true]) = some v)
      (h1 : col p + (rep u).length ≤ c) (h2 : c + 1 < middle (col (p ++ [true])) (rep v).length) :
      Ink rep t col (2 * p.length) c '_'
  | backslash {p v} (h : t.at (p ++ [true]) = some v) :
      Ink rep t col (2 * p.length + 1) (middle (col (p ++ [true])) (rep v).length - 1) '\\'

/-- every label of the tree satisfies `P` -/
def BTree.LabelsAll (rep : V → List Char) (P : List Char → Prop) (t : BTree V) : Prop :=
  ∀ p v, t.at p = some v → P (rep v)

/-! ## Characters of lines -/

/-- the character in a column of a line -/
def ch (l : List Char) (c : Nat) : Char := l[c]?.getD ' '

theorem charAt_zero (l : List Char) (ls : List (List Char)) (c : Nat) : charAt (l :: ls) 0 c = ch l c := rfl

theorem charAt_succ (l : List Char) (ls : List (List Char)) (r c : Nat) :
    charAt (l :: ls) (r + 1) c = charAt ls r c := rfl

theorem ch_append (a b : List Char) (c : Nat) :
    ch (a ++ b) c = if c < a.length then ch a c else ch b (c - a.length) := by
  unfold ch
  split
  · next h => rw [List.getElem?_append_left h]
  · next h => rw [List.getElem?_append_right (by omega)]

theorem ch_replicate (x : Char) (n c : Nat) : ch (List.replicate n x) c = if c < n then x else ' ' := by
  unfold ch
  split
  · next h => rw [List.getElem?_replicate_of_lt h]; rfl
  · next h => rw [List.getElem?_eq_none (by simpa using h)]; rfl

theorem ch_blank (n c : Nat) : ch (List.replicate n ' ') c = ' ' := by
  rw [ch_replicate]; split <;> rfl

theorem ch_nil (c : Nat) : ch [] c = ' ' := rfl

theorem ch_single (x : Char) (c : Nat) : ch [x] c = if c = 0 then x else ' ' := by
  cases c <;> rfl

theorem ch_out {l : List Char} {c : Nat} (h : l.length ≤ c) : ch l c = ' ' := by
  unfold ch
  rw [List.getElem?_eq_none h]; rfl

theorem charAt_eq (ls : List (List Char)) (r c : Nat) : charAt ls r c = ch ((ls[r]?).getD []) c := rfl

/-! ## Boxes -/

/-- a box: all lines are of the same length and the label of the root is within it -/
structure Box.Good (b : Box) (s n : Nat) : Prop where
  lines : ∀ l ∈ b.lines, l.length = b.width
  start : b.start = s
  stop : b.stop = (s : Int) + n - 1
  pos : 0 < n
  le : s + n ≤ b.width

theorem Box.Good.mid {b : Box} {s n : Nat} (h : b.Good s n) :
    (b.start + b.stop) / 2 = (middle s n : Int) := by
  rw [h.start, h.stop, middle]
  have := h.pos
  omega

theorem joinBoxes_get (l r : Box) (gap : Nat) : ∀ (n i j : Nat), (joinBoxes l r gap n i)[j]? =
    if j < n then some (l.lines.getD (i + j) (times ' ' l.width) ++ times ' ' gap ++
      r.lines.getD (i + j) (times ' ' r.width)) else none
  | 0, i, j => by simp [joinBoxes]
  | n + 1, i, 0 => by simp [joinBoxes]
  | n + 1, i, j + 1 => by
    rw [joinBoxes, List.getElem?_cons_succ, joinBoxes_get l r gap n (i + 1) j]
    have : i + 1 + j = i + (j + 1) := by omega
    rw [this]
    simp

theorem joinBoxes_length (l r : Box) (gap : Nat) : ∀ (n i : Nat), (joinBoxes l r gap n i).length = n
  | 0, i => rfl
  | n + 1, i => by rw [joinBoxes, List.length_cons, joinBoxes_length]

/-- the box of a node, in natural numbers -/
theorem nodeBox_eq {label : List Char} {l r : Box} {sl nl sr nr : Nat}
    (hl : 0 < l.width → l.Good sl nl) (hr : 0 < r.width → r.Good sr nr) :
    (nodeBox label l r).lines =
      ((if 0 < l.width then List.replicate (middle sl nl + 2) ' ' ++
          List.replicate (l.width - (middle sl nl + 1)) '_' else []) ++ label ++
        (if 0 < r.width then List.replicate (middle sr nr) '_' ++
          List.replicate (r.width - middle sr nr + 1) ' ' else [])) ::
      ((if 0 < l.width then List.replicate (middle sl nl + 1) ' ' ++ ['/'] ++
          List.replicate (l.width - (middle sl nl + 1)) ' ' else []) ++
        List.replicate label.length ' ' ++
        (if 0 < r.width then List.replicate (middle sr nr) ' ' ++ ['\\'] ++
          List.replicate (r.width - middle sr nr) ' ' else [])) ::
      joinBoxes l r (label.length + (if 0 < l.width then 1 else 0) + (if 0 < r.width then 1 else 0))
        (max l.lines.length r.lines.length) 0 := by
  unfold nodeBox
  have t1 : ∀ m : Nat, ((m : Int) + 1 + 1).toNat = m + 2 := fun m => by omega
  have t2 : ∀ m w : Nat, ((w : Int) - ((m : Int) + 1)).toNat = w - (m + 1) := fun m w => by omega
  have t3 : ∀ m : Nat, ((m : Int) + 1).toNat = m + 1 := fun m => by omega
  have t4 : ∀ m w : Nat, ((w : Int) - (m : Int)).toNat = w - m := fun m w => by omega
  have t5 : ∀ m w : Nat, m < w → ((w : Int) - (m : Int) + 1).toNat = w - m + 1 := fun m w h => by omega
  have bd : ∀ {b : Box} {s n : Nat}, b.Good s n → middle s n < b.width := by
    intro b s n h
    have := h.le; have := h.pos; rw [middle]; omega
  simp only [times]
  by_cases h1 : 0 < l.width
  · have e1 := (hl h1).mid
    by_cases h2 : 0 < r.width
    · have e2 := (hr h2).mid
      simp only [h1, h2, if_true, e1, e2, t1, t2, t3, t4, t5 _ _ (bd (hr h2)), Int.toNat_natCast]
    · simp only [h1, h2, if_true, if_false, e1, t1, t2, t3, Int.toNat_natCast]
  · by_cases h2 : 0 < r.width
    · have e2 := (hr h2).mid
      simp only [h1, h2, if_true, if_false, e2, t4, t5 _ _ (bd (hr h2)), Int.toNat_natCast]
    · simp only [h1, h2, if_false, Int.toNat_natCast]

theorem Box.Good.bound {b : Box} {s n : Nat} (h : b.Good s n) : middle s n < b.width := by
  have := h.le; have := h.pos; rw [middle]; omega

/-- where the label of a node starts -/
def labelCol (l : Box) : Nat := if 0 < l.width then l.width + 1 else 0

theorem nodeBox_good {label : List Char} {l r : Box} {sl nl sr nr : Nat}
    (hl : 0 < l.width → l.Good sl nl) (hr : 0 < r.width → r.Good sr nr)
    (nl : l.width = 0 → l.lines = []) (nr : r.width = 0 → r.lines = []) (hn : label ≠ []) :
    (nodeBox label l r).Good (labelCol l) label.length ∧
    (nodeBox label l r).width = labelCol l + label.length + (if 0 < r.width then r.width + 1 else 0) := by
  have hw : (nodeBox label l r).width =
      labelCol l + label.length + (if 0 < r.width then r.width + 1 else 0) := by
    have : (nodeBox label l r).width = ((nodeBox label l r).lines.getD 0 []).length := rfl
    rw [this, nodeBox_eq hl hr, labelCol]
    by_cases h1 : 0 < l.width
    · have b1 := (hl h1).bound
      by_cases h2 : 0 < r.width
      · have b2 := (hr h2).bound
        simp [h1, h2]; omega
      · simp [h1, h2]; omega
    · by_cases h2 : 0 < r.width
      · have b2 := (hr h2).bound
        simp [h1, h2]; omega
      · simp [h1, h2]
  refine ⟨⟨?_, ?_, ?_, List.length_pos_of_ne_nil hn, by rw [hw]; omega⟩, hw⟩
  · rw [hw, nodeBox_eq hl hr, labelCol]
    intro x hx
    rw [List.mem_cons, List.mem_cons] at hx
    rcases hx with rfl | rfl | hx
    · by_cases h1 : 0 < l.width
      · have b1 := (hl h1).bound
        by_cases h2 : 0 < r.width
        · have b2 := (hr h2).bound
          simp [h1, h2]; omega
        · simp [h1, h2]; omega
      · by_cases h2 : 0 < r.width
        · have b2 := (hr h2).bound
          simp [h1, h2]; omega
        · simp [h1, h2]
    · by_cases h1 : 0 < l.width
      · have b1 := (hl h1).bound
        by_cases h2 : 0 < r.width
        · have b2 := (hr h2).bound
          simp [h1, h2]; omega
        · simp [h1, h2]; omega
      · by_cases h2 : 0 < r.width
        · have b2 := (hr h2).bound
          simp [h1, h2]; omega
        · simp [h1, h2]
    · obtain ⟨j, hj⟩ := List.mem_iff_getElem?.1 hx
      rw [joinBoxes_get] at hj
      split at hj
      · have len : ∀ {b : Box} {s n : Nat}, (0 < b.width → b.Good s n) → (b.width = 0 → b.lines = []) →
            ∀ i : Nat, (b.lines.getD i (times ' ' b.width)).length = b.width := by
          intro b s n h1 h2 i
          rw [List.getD_eq_getElem?_getD]
          cases hi : b.lines[i]? with
          | none => simp [times]
          | some x =>
            by_cases h : 0 < b.width
            · exact (h1 h).lines x (List.mem_of_getElem? hi)
            · rw [h2 (by omega)] at hi; simp at hi
        rw [← Option.some.inj hj, List.length_append, List.length_append, len hl nl, len hr nr]
        by_cases h1 : 0 < l.width
        · by_cases h2 : 0 < r.width
          · simp [times, h1, h2]; omega
          · simp [times, h1, h2]; omega
        · by_cases h2 : 0 < r.width
          · simp [times, h1, h2]; omega
          · simp [times, h1, h2]; omega
      · cases hj
  · show (if 0 < l.width then (l.width : Int) + 1 else 0) = _
    rw [labelCol]
    split <;> simp
  · show (if 0 < l.width then (l.width : Int) + 1 else 0) + label.length - 1 = _
    rw [labelCol]
    split <;> simp

/-! ## The characters of a box -/

section
variable {label : List Char} {l r : Box} {sl nl sr nr : Nat}
  (hl : 0 < l.width → l.Good sl nl) (hr : 0 < r.width → r.Good sr nr)
include hl hr

theorem nodeBox_row0 (c : Nat) : charAt (nodeBox label l r).lines 0 c =
    if c < labelCol l then (if middle sl nl + 2 ≤ c then '_' else ' ')
    else if c < labelCol l + label.length then ch label (c - labelCol l)
    else if 0 < r.width ∧ c < labelCol l + label.length + middle sr nr then '_' else ' ' := by
  rw [nodeBox_eq hl hr, charAt_zero, ch_append, ch_append, List.length_append]
  have el : (if 0 < l.width then List.replicate (middle sl nl + 2) ' ' ++
      List.replicate (l.width - (middle sl nl + 1)) '_' else []).length = labelCol l := by
    rw [labelCol]
    split
    · next h => have := (hl h).bound; simp; omega
    · rfl
  rw [el]
  by_cases h1 : c < labelCol l
  · rw [if_pos (by omega), if_pos h1, if_pos h1]
    have h : 0 < l.width := by
      by_contra h
      rw [labelCol, if_neg h] at h1
      omega
    have hb := (hl h).bound
    rw [labelCol, if_pos h] at h1
    rw [if_pos h, ch_append, ch_replicate, ch_replicate, List.length_replicate]
    by_cases h2 : middle sl nl + 2 ≤ c
    · rw [if_neg (by omega), if_pos (by omega), if_pos h2]
    · rw [if_pos (by omega), if_pos (by omega), if_neg h2]
  · rw [if_neg h1]
    by_cases h2 : c < labelCol l + label.length
    · rw [if_pos h2, if_neg h1, if_pos h2]
    · rw [if_neg h2, if_neg h1, if_neg h2]
      by_cases h3 : 0 < r.width
      · rw [if_pos h3, ch_append, ch_replicate, ch_blank, List.length_replicate]
        by_cases h4 : c < labelCol l + label.length + middle sr nr
        · rw [if_pos (by omega), if_pos (by omega), if_pos ⟨h3, h4⟩]
        · rw [if_neg (by omega), if_neg (fun h => h4 h.2)]
      · rw [if_neg h3, ch_nil, if_neg (fun h => h3 h.1)]

theorem nodeBox_row1 (c : Nat) : charAt (nodeBox label l r).lines 1 c =
    if 0 < l.width ∧ c = middle sl nl + 1 then '/'
    else if 0 < r.width ∧ c = labelCol l + label.length + middle sr nr then '\\' else ' ' := by
  rw [nodeBox_eq hl hr, charAt_succ, charAt_zero, ch_append, ch_append, List.length_append,
    List.length_replicate, ch_blank]
  have el : (if 0 < l.width then List.replicate (middle sl nl + 1) ' ' ++ ['/'] ++
          List.replicate (l.width - (middle sl nl + 1)) ' ' else []).length = labelCol l := by
    rw [labelCol]
    split
    · next h => have := (hl h).bound; simp; omega
    · rfl
  rw [el]
  by_cases h1 : 0 < l.width ∧ c = middle sl nl + 1
  · have hb := (hl h1.1).bound
    have : c < labelCol l := by rw [labelCol, if_pos h1.1, h1.2]; omega
    rw [if_pos h1, if_pos (by omega), if_pos this, if_pos h1.1, h1.2, ch_append, ch_append, ch_single]
    simp
  · rw [if_neg h1]
    by_cases h2 : 0 < r.width ∧ c = labelCol l + label.length + middle sr nr
    · rw [if_pos h2, if_neg (by omega), if_pos h2.1, ch_append, ch_append, ch_single, h2.2]
      simp
    · rw [if_neg h2]
      split
      · split
        · split
          · next h => 
            have hb := (hl h).bound
            rw [ch_append, ch_append, ch_blank, ch_blank, ch_single]
            simp only [List.length_append, List.length_replicate, List.length_singleton]
            split
            · split
              · rfl
              · rw [if_neg]; intro e; exact h1 ⟨h, by omega⟩
            · rfl
          · rfl
        · rfl
      · next hc =>
        split
        · next h =>
          rw [ch_append, ch_append, ch_blank, ch_blank, ch_single]
          simp only [List.length_append, List.length_replicate, List.length_singleton]
          split
          · split
            · rfl
            · rw [if_neg]; intro e; exact h2 ⟨h, by omega⟩
          · rfl
        · rfl

theorem nodeBox_rows (nl' : l.width = 0 → l.lines = []) (nr' : r.width = 0 → r.lines = []) (i c : Nat) :
    charAt (nodeBox label l r).lines (i + 2) c =
    if c < l.width then charAt l.lines i c
    else if labelCol l + label.length + 1 ≤ c then
      charAt r.lines i (c - (labelCol l + label.length + 1))
    else ' ' := by
  rw [nodeBox_eq hl hr, charAt_succ, charAt_succ, charAt_eq, joinBoxes_get, Nat.zero_add]
  have len : ∀ {b : Box} {s n : Nat}, (0 < b.width → b.Good s n) → (b.width = 0 → b.lines = []) →
      (b.lines.getD i (times ' ' b.width)).length = b.width := by
    intro b s n h1 h2
    rw [List.getD_eq_getElem?_getD]
    cases hi : b.lines[i]? with
    | none => simp [times]
    | some x =>
      by_cases h : 0 < b.width
      · exact (h1 h).lines x (List.mem_of_getElem? hi)
      · rw [h2 (by omega)] at hi; simp at hi
  have same : ∀ (b : Box) (c : Nat), ch (b.lines.getD i (times ' ' b.width)) c = charAt b.lines i c := by
    intro b c
    rw [List.getD_eq_getElem?_getD, charAt_eq]
    cases b.lines[i]? with
    | none => rw [Option.getD_none, Option.getD_none, times, ch_blank, ch_nil]
    | some x => rfl
  have out : ∀ {b : Box} {c : Nat}, b.lines.length ≤ i → charAt b.lines i c = ' ' := by
    intro b c h
    rw [charAt_eq, List.getElem?_eq_none h]; rfl
  by_cases h1 : i < max l.lines.length r.lines.length
  · have tb : ∀ g : Nat, times ' ' g = List.replicate g ' ' := fun g => rfl
    rw [if_pos h1, Option.getD_some, ch_append, ch_append, List.length_append, len hl nl', same, same,
      tb, List.length_replicate, ch_blank]
    by_cases h2 : c < l.width
    · rw [if_pos (by omega), if_pos h2, if_pos h2]
    · rw [if_neg h2, if_neg h2]
      by_cases h3 : 0 < r.width
      · have : l.width + (label.length + (if 0 < l.width then 1 else 0) + (if 0 < r.width then 1 else 0)) =
            labelCol l + label.length + 1 := by
          rw [if_pos h3, labelCol]; split <;> omega
        rw [this]
        split
        · rw [if_neg (by omega)]
        · rw [if_pos (by omega)]
      · have e : r.lines = [] := nr' (by omega)
        rw [e]
        have : ∀ c, charAt [] i c = ' ' := fun c => by rw [charAt_eq]; rfl
        simp [this]
  · rw [if_neg h1, out (by omega), out (by omega), Option.getD_none, ch_nil]
    simp

end

/-! ## Trees -/

/-- where the labels are -/
def BTree.colOf (rep : V → List Char) : BTree V → List Bool → Nat
  | .nil, _ => 0
  | .node l _ _, [] => labelCol (l.box rep)
  | .node l v r, b :: p =>
    if b then labelCol (l.box rep) + (rep v).length + 1 + r.colOf rep p else l.colOf rep p

theorem BTree.nil_at (p : List Bool) : (BTree.nil : BTree V).at p = none := by
  cases p <;> rfl

theorem BTree.at_cons (l : BTree V) (v : V) (r : BTree V) (b : Bool) (p : List Bool) :
    (BTree.node l v r).at (b :: p) = if b then r.at p else l.at p := by
  cases b <;> rfl

theorem BTree.LabelsAll.left {rep : V → List Char} {P : List Char → Prop} {l r : BTree V} {v : V}
    (h : (BTree.node l v r).LabelsAll rep P) : l.LabelsAll rep P := fun p w hw => h (false :: p) w hw

theorem BTree.LabelsAll.right {rep : V → List Char} {P : List Char → Prop} {l r : BTree V} {v : V}
    (h : (BTree.node l v r).LabelsAll rep P) : r.LabelsAll rep P := fun p w hw => h (true :: p) w hw

theorem BTree.LabelsAll.root {rep : V → List Char} {P : List Char → Prop} {l r : BTree V} {v : V}
    (h : (BTree.node l v r).LabelsAll rep P) : P (rep v) := h [] v rfl

/-- the length of the label of the root -/
def BTree.rootLen (rep : V → List Char) : BTree V → Nat
  | .nil => 0
  | .node _ v _ => (rep v).length

theorem BTree.box_good {rep : V → List Char} : ∀ {t : BTree V}, t.LabelsAll rep (· ≠ []) →
    (0 < (t.box rep).width → (t.box rep).Good (t.colOf rep []) (t.rootLen rep)) ∧
    ((t.box rep).width = 0 → (t.box rep).lines = []) ∧ (0 < (t.box rep).width ↔ t ≠ .nil)
  | .nil, _ => ⟨fun h => absurd h (by simp [BTree.box]), fun _ => rfl, by simp [BTree.box]⟩
  | .node l v r, h => by
    obtain ⟨l1, l2, _⟩ := BTree.box_good h.left
    obtain ⟨r1, r2, _⟩ := BTree.box_good h.right
    have g := nodeBox_good (label := rep v) l1 r1 l2 r2 h.root
    have hp : 0 < ((BTree.node l v r).box rep).width := by
      have := g.1.pos; have := g.1.le
      rw [BTree.box]; omega
    exact ⟨fun _ => g.1, fun e => absurd e (by omega), by simp [hp]⟩

theorem BTree.box_lines {rep : V → List Char} : ∀ (t : BTree V), (t.box rep).lines.length = 2 * t.nlev
  | .nil => rfl
  | .node l v r => by
    rw [BTree.box, nodeBox, List.length_cons, List.length_cons, joinBoxes_length, BTree.box_lines l,
      BTree.box_lines r, BTree.nlev]
    omega

theorem BTree.col_le {rep : V → List Char} {p : List Bool} : ∀ {t : BTree V}, t.LabelsAll rep (· ≠ []) →
    ∀ {v : V}, t.at p = some v → t.colOf rep p + (rep v).length ≤ (t.box rep).width := by
  induction p with
  | nil =>
    intro t h v hv
    cases t with
    | nil => cases hv
    | node l w r =>
      cases hv
      have := BTree.box_good h
      exact (this.1 (this.2.2.2 (by simp))).le
  | cons b p ih =>
    intro t h v hv
    cases t with
    | nil => rw [BTree.nil_at] at hv; cases hv
    | node l w r =>
      rw [BTree.at_cons] at hv
      obtain ⟨l1, l2, l3⟩ := BTree.box_good h.left
      obtain ⟨r1, r2, r3⟩ := BTree.box_good h.right
      have g := (nodeBox_good (label := rep w) l1 r1 l2 r2 h.root).2
      rw [BTree.box, g, BTree.colOf]
      cases b with
      | false =>
        have := ih h.left hv
        have hl : 0 < (l.box rep).width := l3.2 (by rintro rfl; simp [BTree.nil_at] at hv)
        rw [labelCol, if_pos hl]
        simp only [Bool.false_eq_true, if_false]
        omega
      | true =>
        have := ih h.right hv
        have hr : 0 < (r.box rep).width := r3.2 (by rintro rfl; simp [BTree.nil_at] at hv)
        rw [if_pos hr]
        simp only [if_true]
        omega

/-- labels are next to each other in the order of an inorder traversal -/
theorem BTree.col_inorder {rep : V → List Char} : ∀ {t : BTree V}, t.LabelsAll rep (· ≠ []) →
    ∀ {p q : List Bool} {v w : V}, t.at p = some v → t.at q = some w → inLt p q = true →
    t.colOf rep p + (rep v).length < t.colOf rep q
  | .nil, _, p, _, _, _, hp, _, _ => by rw [BTree.nil_at] at hp; cases hp
  | .node l x r, h, [], [], _, _, _, _, hlt => by cases hlt
  | .node l x r, h, [], b :: q, v, w, hp, hq, hlt => by
    rw [inLt] at hlt
    subst hlt
    cases hp
    rw [BTree.colOf, BTree.colOf, if_pos rfl]
    omega
  | .node l x r, h, a :: p, [], v, w, hp, hq, hlt => by
    simp only [inLt, Bool.not_eq_true'] at hlt
    subst hlt
    rw [BTree.at_cons] at hp
    have := BTree.col_le h.left hp
    have hl := (BTree.box_good h.left).2.2.2 (by rintro rfl; simp [BTree.nil_at] at hp)
    rw [BTree.colOf, BTree.colOf, labelCol, if_pos hl]
    simp only [Bool.false_eq_true, if_false]
    omega
  | .node l x r, h, a :: p, b :: q, v, w, hp, hq, hlt => by
    rw [BTree.at_cons] at hp hq
    rw [inLt] at hlt
    rw [BTree.colOf, BTree.colOf]
    cases a <;> cases b <;> simp only [Bool.false_eq_true, if_false, if_true, Bool.true_eq_false,
      Bool.not_false, Bool.not_true] at hp hq hlt ⊢
    · exact BTree.col_inorder h.left hp hq hlt
    · have := BTree.col_le h.left hp
      have hl := (BTree.box_good h.left).2.2.2 (by rintro rfl; simp [BTree.nil_at] at hp)
      rw [labelCol, if_pos hl]
      omega
    · have := BTree.col_inorder h.right hp hq hlt
      omega

theorem middle_add {k c n : Nat} (hn : 0 < n) : middle (k + c) n = k + middle c n := by
  rw [middle, middle]; omega

theorem length_pos_of_at {rep : V → List Char} {t : BTree V} (h : t.LabelsAll rep (· ≠ [])) {p : List Bool}
    {v : V} (hv : t.at p = some v) : 0 < (rep v).length := List.length_pos_of_ne_nil (h p v hv)

theorem BTree.col_right_pos {rep : V → List Char} {t : BTree V} (h : t.LabelsAll rep (· ≠ []))
    {p : List Bool} {v : V} (hv : t.at (p ++ [true]) = some v) :
    0 < middle (t.colOf rep (p ++ [true])) (rep v).length := by
  have hp : ∃ u, t.at p = some u := by
    clear h
    induction p generalizing t with
    | nil =>
      cases t with
      | nil => rw [BTree.nil_at] at hv; cases hv
      | node l w r => exact ⟨w, rfl⟩
    | cons b p ih =>
      cases t with
      | nil => rw [BTree.nil_at] at hv; cases hv
      | node l w r =>
        rw [List.cons_append, BTree.at_cons] at hv
        rw [BTree.at_cons]
        cases b
        · exact ih hv
        · exact ih hv
  obtain ⟨u, hu⟩ := hp
  have hin : inLt p (p ++ [true]) = true := by
    clear hu hv
    induction p with
    | nil => rfl
    | cons b p ih => simp [inLt, ih]
  have := BTree.col_inorder h hu hv hin
  have := length_pos_of_at h hv
  rw [middle]; omega

section
variable {rep : V → List Char} {l r : BTree V} {x : V}

theorem Ink.liftLeft {i c : Nat} {a : Char} (k : Ink rep l (l.colOf rep) i c a) :
    Ink rep (.node l x r) ((BTree.node l x r).colOf rep) (i + 2) c a := by
  cases k with
  | @label p v i ch h hi => exact Ink.label (p := false :: p) h hi
  | @left p v c h h1 h2 => exact Ink.left (p := false :: p) h h1 h2
  | @slash p v h => exact Ink.slash (p := false :: p) h
  | @right p u v c hu h h1 h2 => exact Ink.right (p := false :: p) hu h h1 h2
  | @backslash p v h => exact Ink.backslash (p := false :: p) h

theorem Ink.liftRight (hr : r.LabelsAll rep (· ≠ [])) {i c : Nat} {a : Char}
    (k : Ink rep r (r.colOf rep) i c a) :
    Ink rep (.node l x r) ((BTree.node l x r).colOf rep) (i + 2)
      (labelCol (l.box rep) + (rep x).length + 1 + c) a := by
  generalize hk : labelCol (l.box rep) + (rep x).length + 1 = k'
  have e : ∀ p, (BTree.node l x r).colOf rep (true :: p) = k' + r.colOf rep p := by
    intro p; rw [BTree.colOf, hk]; rfl
  cases k with
  | @label p v i ch h hi =>
    have := Ink.label (t := .node l x r) (col := (BTree.node l x r).colOf rep) (p := true :: p) h hi
    rw [e, Nat.add_assoc] at this
    exact this
  | @left p v c h h1 h2 =>
    have hn := length_pos_of_at hr h
    exact Ink.left (p := true :: p) h (by rw [List.cons_append, e, middle_add hn]; omega) (by rw [e]; omega)
  | @slash p v h =>
    have hn := length_pos_of_at hr h
    have := Ink.slash (rep := rep) (t := .node l x r) (col := (BTree.node l x r).colOf rep) (p := true :: p) h
    rw [List.cons_append, e, middle_add hn, Nat.add_assoc] at this
    exact this
  | @right p u v c hu h h1 h2 =>
    have hn := length_pos_of_at hr h
    exact Ink.right (p := true :: p) hu h (by rw [e]; omega)
      (by rw [List.cons_append, e, middle_add hn]; omega)
  | @backslash p v h =>
    have hn := length_pos_of_at hr h
    have hm := BTree.col_right_pos hr h
    have := Ink.backslash (rep := rep) (t := .node l x r) (col := (BTree.node l x r).colOf rep) (p := true :: p) h
    rw [List.cons_append, e, middle_add hn, Nat.add_sub_assoc hm] at this
    exact this

end

theorem BTree.blank_out {rep : V → List Char} {t : BTree V} (h : t.LabelsAll rep (· ≠ [])) {i c : Nat}
    (hc : (t.box rep).width ≤ c) : charAt (t.box rep).lines i c = ' ' := by
  obtain ⟨h1, h2, _⟩ := BTree.box_good h
  rw [charAt_eq]
  cases hi : (t.box rep).lines[i]? with
  | none => rfl
  | some x =>
    refine ch_out ?_
    by_cases hw : 0 < (t.box rep).width
    · rw [Option.getD_some, (h1 hw).lines x (List.mem_of_getElem? hi)]; exact hc
    · rw [h2 (by omega)] at hi; simp at hi

/-- what is drawn -/
theorem BTree.ink {rep : V → List Char} : ∀ {t : BTree V}, t.LabelsAll rep (· ≠ []) → ∀ {i c : Nat} {a : Char},
    Ink rep t (t.colOf rep) i c a → charAt (t.box rep).lines i c = a
  | .nil, _, i, c, a, k => by
    cases k with
    | label h _ => rw [BTree.nil_at] at h; cases h
    | left h _ _ => rw [BTree.nil_at] at h; cases h
    | slash h => rw [BTree.nil_at] at h; cases h
    | right h _ _ _ => rw [BTree.nil_at] at h; cases h
    | backslash h => rw [BTree.nil_at] at h; cases h
  | .node l x r, H, i, c, a, k => by
    obtain ⟨l1, l2, l3⟩ := BTree.box_good H.left
    obtain ⟨r1, r2, r3⟩ := BTree.box_good H.right
    have rows := nodeBox_rows (label := rep x) l1 r1 l2 r2
    have lw : ∀ {i c a}, a ≠ ' ' ∨ c < (l.box rep).width → charAt (l.box rep).lines i c = a →
        charAt (BTree.box rep (.node l x r)).lines (i + 2) c = a := by
      intro i c a h1 h2
      have hc : c < (l.box rep).width := by
        rcases h1 with h1 | h1
        · by_contra hc
          exact h1 (by rw [← h2, BTree.blank_out H.left (by omega)])
        · exact h1
      rw [BTree.box, rows, if_pos hc, h2]
    have rw' : ∀ {i c a}, charAt (r.box rep).lines i c = a →
        charAt (BTree.box rep (.node l x r)).lines (i + 2)
          (labelCol (l.box rep) + (rep x).length + 1 + c) = a := by
      intro i c a h2
      have : (l.box rep).width ≤ labelCol (l.box rep) := by rw [labelCol]; split <;> omega
      rw [BTree.box, rows, if_neg (by omega), if_pos (by omega), Nat.add_sub_cancel_left, h2]
    have e : ∀ p, (BTree.node l x r).colOf rep (true :: p) =
        labelCol (l.box rep) + (rep x).length + 1 + r.colOf rep p := by
      intro p; rw [BTree.colOf]; rfl
    cases k with
    | @label p v i _ h hi =>
      have hii : i < (rep v).length := by
        by_contra hh
        rw [List.getElem?_eq_none (by omega)] at hi
        cases hi
      match p, h with
      | [], h =>
        cases h
        show charAt _ 0 (labelCol (l.box rep) + i) = a
        rw [BTree.box, nodeBox_row0 l1 r1, if_neg (by omega), if_pos (by omega), Nat.add_sub_cancel_left,
          ch, hi]
        rfl
      | false :: p, h =>
        have h' : l.at p = some v := h
        have := BTree.col_le H.left h'
        exact lw (Or.inr (by show l.colOf rep p + i < _; omega)) (BTree.ink H.left (.label h' hi))
      | true :: p, h =>
        rw [e, Nat.add_assoc]
        exact rw' (BTree.ink H.right (.label (show r.at p = some v from h) hi))
    | @left p v c h h1 h2 =>
      match p, h with
      | [], h =>
        have h' : l.at [] = some v := h
        have hl := l3.2 (by rintro rfl; cases h')
        have e1 : l.rootLen rep = (rep v).length := by
          cases l with
          | nil => cases h'
          | node => cases h'; rfl
        have h1' : middle (l.colOf rep []) (rep v).length + 1 < c := h1
        have h2' : c < labelCol (l.box rep) := h2
        show charAt _ 0 c = _
        rw [BTree.box, nodeBox_row0 l1 r1, if_pos h2', if_pos (by rw [e1]; omega)]
      | false :: p, h => exact lw (Or.inl (by decide)) (BTree.ink H.left (.left h h1 h2))
      | true :: p, h =>
        have h' : r.at (p ++ [false]) = some v := h
        have hn := length_pos_of_at H.right h'
        rw [List.cons_append, e, middle_add hn] at h1
        rw [e] at h2
        have hc : c = labelCol (l.box rep) + (rep x).length + 1 +
          (c - (labelCol (l.box rep) + (rep x).length + 1)) := by omega
        rw [hc]
        exact rw' (BTree.ink H.right (.left h' (by omega) (by omega)))
    | @slash p v h =>
      match p, h with
      | [], h =>
        have h' : l.at [] = some v := h
        have hl := l3.2 (by rintro rfl; cases h')
        have e1 : l.rootLen rep = (rep v).length := by
          cases l with
          | nil => cases h'
          | node => cases h'; rfl
        show charAt _ 1 (middle (l.colOf rep []) (rep v).length + 1) = _
        rw [BTree.box, nodeBox_row1 l1 r1, if_pos ⟨hl, by rw [e1]⟩]
      | false :: p, h => exact lw (Or.inl (by decide)) (BTree.ink H.left (.slash h))
      | true :: p, h =>
        have h' : r.at (p ++ [false]) = some v := h
        have hn := length_pos_of_at H.right h'
        rw [List.cons_append, e, middle_add hn, Nat.add_assoc]
        exact rw' (BTree.ink H.right (.slash h'))
    | @right p u v c hu h h1 h2 =>
      match p, hu, h with
      | [], hu, h =>
        cases hu
        have h' : r.at [] = some v := h
        have hr := r3.2 (by rintro rfl; cases h')
        have hn := length_pos_of_at H.right h'
        have e1 : r.rootLen rep = (rep v).length := by
          cases r with
          | nil => cases h'
          | node => cases h'; rfl
        have h1' : labelCol (l.box rep) + (rep x).length ≤ c := h1
        rw [List.nil_append, e, middle_add hn] at h2
        show charAt _ 0 c = _
        rw [BTree.box, nodeBox_row0 l1 r1, if_neg (by omega), if_neg (by omega),
          if_pos ⟨hr, by rw [e1]; omega⟩]
      | false :: p, hu, h => exact lw (Or.inl (by decide)) (BTree.ink H.left (.right hu h h1 h2))
      | true :: p, hu, h =>
        have h' : r.at (p ++ [true]) = some v := h
        have hn := length_pos_of_at H.right h'
        rw [List.cons_append, e, middle_add hn] at h2
        rw [e] at h1
        have hc : c = labelCol (l.box rep) + (rep x).length + 1 +
          (c - (labelCol (l.box rep) + (rep x).length + 1)) := by omega
        rw [hc]
        exact rw' (BTree.ink H.right (.right (show r.at p = some u from hu) h' (by omega) (by omega)))
    | @backslash p v h =>
      match p, h with
      | [], h =>
        have h' : r.at [] = some v := h
        have hr := r3.2 (by rintro rfl; cases h')
        have hn := length_pos_of_at H.right h'
        have e1 : r.rootLen rep = (rep v).length := by
          cases r with
          | nil => cases h'
          | node => cases h'; rfl
        show charAt _ 1 (middle ((BTree.node l x r).colOf rep [true]) (rep v).length - 1) = _
        rw [e, middle_add hn, BTree.box, nodeBox_row1 l1 r1, if_neg, if_pos ⟨hr, by rw [e1]; omega⟩]
        rintro ⟨hl, hh⟩
        have := (l1 hl).bound
        rw [labelCol, if_pos hl] at hh
        omega
      | false :: p, h => exact lw (Or.inl (by decide)) (BTree.ink H.left (.backslash h))
      | true :: p, h =>
        have h' : r.at (p ++ [true]) = some v := h
        have hn := length_pos_of_at H.right h'
        have hm := BTree.col_right_pos H.right h'
        rw [List.cons_append, e, middle_add hn, Nat.add_sub_assoc hm]
        exact rw' (BTree.ink H.right (.backslash h'))

/-- nothing else is drawn -/
theorem BTree.noInk {rep : V → List Char} : ∀ {t : BTree V}, t.LabelsAll rep (· ≠ []) → ∀ {i c : Nat},
    (∀ a, ¬ Ink rep t (t.colOf rep) i c a) → charAt (t.box rep).lines i c = ' '
  | .nil, _, i, c, _ => by rw [charAt_eq]; rfl
  | .node l x r, H, i, c, k => by
    obtain ⟨l1, l2, l3⟩ := BTree.box_good H.left
    obtain ⟨r1, r2, r3⟩ := BTree.box_good H.right
    have e : ∀ p, (BTree.node l x r).colOf rep (true :: p) =
        labelCol (l.box rep) + (rep x).length + 1 + r.colOf rep p := by
      intro p; rw [BTree.colOf]; rfl
    have rootL : 0 < (l.box rep).width → ∃ v, l.at [] = some v ∧ l.rootLen rep = (rep v).length := by
      intro h
      have := l3.1 h
      cases l with
      | nil => exact absurd rfl this
      | node _ v _ => exact ⟨v, rfl, rfl⟩
    have rootR : 0 < (r.box rep).width → ∃ v, r.at [] = some v ∧ r.rootLen rep = (rep v).length := by
      intro h
      have := r3.1 h
      cases r with
      | nil => exact absurd rfl this
      | node _ v _ => exact ⟨v, rfl, rfl⟩
    match i with
    | 0 =>
      rw [BTree.box, nodeBox_row0 l1 r1]
      split
      · next h1 =>
        split
        · next h2 =>
          have hl : 0 < (l.box rep).width := by
            by_contra h
            rw [labelCol, if_neg h] at h1
            omega
          obtain ⟨v, hv, ev⟩ := rootL hl
          exact absurd (Ink.left (p := []) (c := c) (show (BTree.node l x r).at [false] = some v from hv)
            (by rw [← ev]; show middle (l.colOf rep []) _ + 1 < c; omega) h1) (k '_')
        · rfl
      · next h1 =>
        split
        · next h2 =>
          have hlt : c - labelCol (l.box rep) < (rep x).length := by omega
          have hk := Ink.label (rep := rep) (t := .node l x r) (col := (BTree.node l x r).colOf rep) (p := [])
            (v := x) rfl (List.getElem?_eq_getElem hlt)
          have hc : (BTree.node l x r).colOf rep [] + (c - labelCol (l.box rep)) = c := by
            show labelCol (l.box rep) + _ = _; omega
          rw [hc] at hk
          exact absurd hk (k _)
        · next h2 =>
          split
          · next h3 =>
            obtain ⟨v, hv, ev⟩ := rootR h3.1
            have hn := length_pos_of_at H.right hv
            refine absurd (Ink.right (p := []) (c := c) rfl
              (show (BTree.node l x r).at [true] = some v from hv) ?_ ?_) (k '_')
            · show labelCol (l.box rep) + _ ≤ c; omega
            · rw [List.nil_append, e, middle_add hn, ← ev]; omega
          · rfl
    | 1 =>
      rw [BTree.box, nodeBox_row1 l1 r1]
      split
      · next h1 =>
        obtain ⟨v, hv, ev⟩ := rootL h1.1
        have hk := Ink.slash (rep := rep) (col := (BTree.node l x r).colOf rep) (p := [])
          (show (BTree.node l x r).at [false] = some v from hv)
        rw [← ev] at hk
        rw [h1.2] at k
        exact absurd hk (k _)
      · split
        · next h1 =>
          obtain ⟨v, hv, ev⟩ := rootR h1.1
          have hn := length_pos_of_at H.right hv
          have hk := Ink.backslash (rep := rep) (col := (BTree.node l x r).colOf rep) (p := [])
            (show (BTree.node l x r).at [true] = some v from hv)
          rw [List.nil_append, e, middle_add hn, ← ev] at hk
          have hc : labelCol (l.box rep) + (rep x).length + 1 + middle (r.colOf rep []) (r.rootLen rep) - 1
            = c := by rw [h1.2]; omega
          rw [hc] at hk
          exact absurd hk (k _)
        · rfl
    | i + 2 =>
      rw [BTree.box, nodeBox_rows l1 r1 l2 r2]
      split
      · exact BTree.noInk H.left fun a ka => k a ka.liftLeft
      · split
        · next h1 h2 =>
          refine BTree.noInk H.right fun a ka => k a ?_
          have := Ink.liftRight (l := l) (x := x) H.right ka
          rwa [Nat.add_sub_cancel' h2] at this
        · rfl

/-! ## The text -/

theorem rstrip_split (l : List Char) : l = rstrip l ++ (l.reverse.takeWhile pySpace).reverse := by
  rw [rstrip, ← List.reverse_append, List.takeWhile_append_dropWhile, List.reverse_reverse]

theorem ch_rstrip {l : List Char} (h : ∀ x ∈ l, pySpace x = true → x = ' ') (c : Nat) :
    ch (rstrip l) c = ch l c := by
  conv => rhs; rw [rstrip_split l]
  rw [ch_append]
  split
  · rfl
  · next hc =>
    rw [ch_out (by omega), ch]
    cases hx : (l.reverse.takeWhile pySpace).reverse[c - (rstrip l).length]? with
    | none => rfl
    | some x =>
      have hm := List.mem_of_getElem? hx
      rw [List.mem_reverse] at hm
      have h1 := List.mem_takeWhile_imp hm
      have h2 := (List.takeWhile_sublist pySpace).subset hm
      rw [h x (by simpa using h2) h1]
      rfl

theorem rstrip_id {l : List Char} (h : ∀ x ∈ l, pySpace x = false) : rstrip l = l := by
  rw [rstrip]
  have : l.reverse.dropWhile pySpace = l.reverse := by
    cases hr : l.reverse with
    | nil => rfl
    | cons x xs =>
      have hx : x ∈ l := by rw [← List.mem_reverse, hr]; exact List.mem_cons_self
      rw [List.dropWhile_cons, h x hx]; rfl
  rw [this, List.reverse_reverse]

theorem BTree.depth_lt : ∀ {t : BTree V} {p : List Bool} {v : V}, t.at p = some v → p.length < t.nlev
  | .nil, p, v, h => by rw [BTree.nil_at] at h; cases h
  | .node l x r, [], v, h => by rw [BTree.nlev]; simp
  | .node l x r, b :: p, v, h => by
    rw [BTree.at_cons] at h
    rw [BTree.nlev, List.length_cons]
    cases b with
    | false => have := BTree.depth_lt (t := l) h; omega
    | true => have := BTree.depth_lt (t := r) h; omega

/-- a label that is drawn as it is: not empty, and without white space other than blanks -/
def Plain (s : List Char) : Prop := s ≠ [] ∧ ∀ x ∈ s, pySpace x = true → x = ' '

theorem BTree.box_space {rep : V → List Char} {t : BTree V} (h : t.LabelsAll rep Plain) :
    ∀ l ∈ (t.box rep).lines, ∀ x ∈ l, pySpace x = true → x = ' ' := by
  have H : t.LabelsAll rep (· ≠ []) := fun p v hv => (h p v hv).1
  intro l hl x hx hs
  obtain ⟨i, hi⟩ := List.mem_iff_getElem?.1 hl
  obtain ⟨c, hc⟩ := List.mem_iff_getElem?.1 hx
  have e : charAt (t.box rep).lines i c = x := by rw [charAt_eq, hi, Option.getD_some, ch, hc]; rfl
  by_cases hk : ∃ a, Ink rep t (t.colOf rep) i c a
  · obtain ⟨a, ka⟩ := hk
    have e' := BTree.ink H ka
    rw [e] at e'
    subst e'
    cases ka with
    | label hp hi => exact (h _ _ hp).2 x (List.mem_of_getElem? hi) hs
    | left => revert hs; decide
    | slash => revert hs; decide
    | right => revert hs; decide
    | backslash => revert hs; decide
  · rw [← e]
    exact BTree.noInk H fun a ka => hk ⟨a, ka⟩

/-- the lines of the text of a tree -/
def BTree.textLines (rep : V → List Char) (t : BTree V) : List (List Char) :=
  (t.box rep).lines.dropLast.map rstrip

theorem BTree.textLines_length (rep : V → List Char) (t : BTree V) :
    (t.textLines rep).length = 2 * t.nlev - 1 := by
  rw [BTree.textLines, List.length_map, List.length_dropLast, BTree.box_lines]

theorem BTree.textLines_one {rep : V → List Char} {t : BTree V} (h : t.LabelsAll rep Plain) :
    ∀ l ∈ t.textLines rep, '\n' ∉ l := by
  intro l hl hn
  rw [BTree.textLines, List.mem_map] at hl
  obtain ⟨l', hl', rfl⟩ := hl
  have hm : '\n' ∈ l' := by rw [rstrip_split l']; exact List.mem_append_left _ hn
  have := BTree.box_space h l' (List.dropLast_subset _ hl') '\n' hm (by decide)
  exact absurd this (by decide)

theorem BTree.textLines_char {rep : V → List Char} {t : BTree V} (h : t.LabelsAll rep Plain) (i c : Nat) :
    charAt (t.textLines rep) i c = charAt (t.box rep).lines i c := by
  have H : t.LabelsAll rep (· ≠ []) := fun p v hv => (h p v hv).1
  rw [charAt_eq, BTree.textLines, List.getElem?_map]
  by_cases hi : i < (t.box rep).lines.length - 1
  · rw [List.getElem?_dropLast, if_pos hi, List.getElem?_eq_getElem (by omega)]
    show ch (rstrip _) c = _
    rw [ch_rstrip (BTree.box_space h _ (List.getElem_mem _)), charAt_eq,
      List.getElem?_eq_getElem (by omega)]
    rfl
  · rw [List.getElem?_eq_none (by rw [List.length_dropLast]; omega)]
    show ' ' = _
    refine (BTree.noInk H fun a ka => ?_).symm
    rw [BTree.box_lines] at hi
    cases ka with
    | label hp _ => have := BTree.depth_lt hp; omega
    | left hp _ _ => have := BTree.depth_lt hp; rw [List.length_append] at this; simp at this; omega
    | slash hp => have := BTree.depth_lt hp; rw [List.length_append] at this; simp at this; omega
    | right hp _ _ _ => have := BTree.depth_lt hp; omega
    | backslash hp => have := BTree.depth_lt hp; rw [List.length_append] at this; simp at this; omega

theorem BTree.repr_eq {rep : V → List Char} {t : BTree V} (h : t ≠ .nil) :
    t.repr rep = joinLines (t.textLines rep) := by
  cases t with
  | nil => exact absurd rfl h
  | node => rfl

/-! ## Reading a drawing -/

/-- the tree of the labels -/
def BTree.labels (rep : V → List Char) : BTree V → BTree (List Char)
  | .nil => .nil
  | .node l v r => .node (l.labels rep) (rep v) (r.labels rep)

/-- a label that can be told from the lines around it -/
def Visible (s : List Char) : Prop := s ≠ [] ∧ ∀ x ∈ s, pySpace x = false ∧ x ≠ '_'

theorem Visible.plain {s : List Char} (h : Visible s) : Plain s :=
  ⟨h.1, fun x hx hs => by rw [(h.2 x hx).1] at hs; cases hs⟩

theorem ch_mem {l : List Char} {c : Nat} (h : c < l.length) : ch l c ∈ l := by
  rw [ch, List.getElem?_eq_getElem h]
  exact List.getElem_mem h

theorem ch_ext {a b : List Char} (hl : a.length = b.length) (h : ∀ c, c < a.length → ch a c = ch b c) :
    a = b := by
  refine List.ext_getElem? fun c => ?_
  by_cases hc : c < a.length
  · have := h c hc
    rw [ch, ch, List.getElem?_eq_getElem hc, List.getElem?_eq_getElem (hl ▸ hc)] at this
    rw [List.getElem?_eq_getElem hc, List.getElem?_eq_getElem (hl ▸ hc)]
    exact congrArg some this
  · rw [List.getElem?_eq_none (by omega), List.getElem?_eq_none (by omega)]

/-- a character of a label -/
private def Solid (x : Char) : Prop := x ≠ ' ' ∧ x ≠ '_'

private theorem row0_solid {rep : V → List Char} {l r : BTree V} {x : V}
    (H : (BTree.node l x r).LabelsAll rep Visible) (c : Nat) :
    Solid (charAt (BTree.box rep (.node l x r)).lines 0 c) ↔
      labelCol (l.box rep) ≤ c ∧ c < labelCol (l.box rep) + (rep x).length := by
  have hn : (BTree.node l x r).LabelsAll rep (· ≠ []) := fun p v hv => (H p v hv).1
  obtain ⟨l1, l2, l3⟩ := BTree.box_good hn.left
  obtain ⟨r1, r2, r3⟩ := BTree.box_good hn.right
  rw [BTree.box, nodeBox_row0 l1 r1]
  split
  · next h1 =>
    have : ¬ Solid (if middle (l.colOf rep []) (l.rootLen rep) + 2 ≤ c then '_' else ' ') := by
      split <;> simp [Solid]
    exact iff_of_false this (by omega)
  · next h1 =>
    split
    · next h2 =>
      refine iff_of_true ?_ ⟨by omega, h2⟩
      have := H.root.2 _ (ch_mem (show c - labelCol (l.box rep) < (rep x).length by omega))
      refine ⟨fun e => ?_, this.2⟩
      rw [e] at this
      exact absurd this.1 (by decide)
    · next h2 =>
      refine iff_of_false ?_ (by omega)
      split <;> simp [Solid]

theorem BTree.labels_of_picture {W : Type} {rep : V → List Char} {rep' : W → List Char} :
    ∀ {s : BTree V} {t : BTree W}, s.LabelsAll rep Visible → t.LabelsAll rep' Visible →
    (∀ i c, charAt (s.box rep).lines i c = charAt (t.box rep').lines i c) → s.labels rep = t.labels rep'
  | .nil, .nil, _, _, _ => rfl
  | .nil, .node l x r, _, h, e => by
    have h0 := (row0_solid h (labelCol (l.box rep'))).2 ⟨Nat.le_refl _, by
      have := List.length_pos_of_ne_nil h.root.1; omega⟩
    rw [← e] at h0
    exact absurd rfl h0.1
  | .node l x r, .nil, h, _, e => by
    have h0 := (row0_solid h (labelCol (l.box rep))).2 ⟨Nat.le_refl _, by
      have := List.length_pos_of_ne_nil h.root.1; omega⟩
    rw [e] at h0
    exact absurd rfl h0.1
  | .node l x r, .node l' x' r', h, h', e => by
    have hn : (BTree.node l x r).LabelsAll rep (· ≠ []) := fun p v hv => (h p v hv).1
    have hn' : (BTree.node l' x' r').LabelsAll rep' (· ≠ []) := fun p v hv => (h' p v hv).1
    obtain ⟨l1, l2, l3⟩ := BTree.box_good hn.left
    obtain ⟨r1, r2, r3⟩ := BTree.box_good hn.right
    obtain ⟨l1', l2', l3'⟩ := BTree.box_good hn'.left
    obtain ⟨r1', r2', r3'⟩ := BTree.box_good hn'.right
    have p := List.length_pos_of_ne_nil h.root.1
    have p' := List.length_pos_of_ne_nil h'.root.1
    have iff : ∀ c, (labelCol (l.box rep) ≤ c ∧ c < labelCol (l.box rep) + (rep x).length) ↔
        (labelCol (l'.box rep') ≤ c ∧ c < labelCol (l'.box rep') + (rep' x').length) := by
      intro c
      rw [← row0_solid h, ← row0_solid h', e]
    have hS : labelCol (l.box rep) = labelCol (l'.box rep') := by
      have a := (iff (labelCol (l.box rep))).1 ⟨Nat.le_refl _, by omega⟩
      have b := (iff (labelCol (l'.box rep'))).2 ⟨Nat.le_refl _, by omega⟩
      omega
    have hN : (rep x).length = (rep' x').length := by
      have a := (iff (labelCol (l.box rep) + (rep x).length - 1)).1 ⟨by omega, by omega⟩
      have b := (iff (labelCol (l'.box rep') + (rep' x').length - 1)).2 ⟨by omega, by omega⟩
      omega
    have hlab : rep x = rep' x' := by
      refine ch_ext hN fun c hc => ?_
      have := e 0 (labelCol (l.box rep) + c)
      rw [BTree.box, BTree.box, nodeBox_row0 l1 r1, nodeBox_row0 l1' r1', if_neg (by omega),
        if_pos (by omega), if_neg (by omega), if_pos (by omega), Nat.add_sub_cancel_left, hS,
        Nat.add_sub_cancel_left] at this
      exact this
    have hW : (l.box rep).width = (l'.box rep').width := by
      rw [labelCol, labelCol] at hS
      split at hS <;> split at hS <;> omega
    have hle : (l.box rep).width ≤ labelCol (l.box rep) := by rw [labelCol]; split <;> omega
    rw [BTree.labels, BTree.labels, hlab, BTree.labels_of_picture h.left h'.left ?_,
      BTree.labels_of_picture h.right h'.right ?_]
    · intro i c
      have := e (i + 2) (labelCol (l.box rep) + (rep x).length + 1 + c)
      rw [BTree.box, BTree.box, nodeBox_rows l1 r1 l2 r2, nodeBox_rows l1' r1' l2' r2', if_neg (by omega),
        if_pos (by omega), if_neg (by omega), if_pos (by omega), Nat.add_sub_cancel_left, hS, hN,
        Nat.add_sub_cancel_left] at this
      exact this
    · intro i c
      by_cases hc : c < (l.box rep).width
      · have := e (i + 2) c
        rw [BTree.box, BTree.box, nodeBox_rows l1 r1 l2 r2, nodeBox_rows l1' r1' l2' r2', if_pos hc,
          if_pos (by omega)] at this
        exact this
      · rw [BTree.blank_out hn.left (by omega), BTree.blank_out hn'.left (by omega)]

theorem BTree.nlev_pos {t : BTree V} (h : t ≠ .nil) : 0 < t.nlev := by
  cases t with
  | nil => exact absurd rfl h
  | node => rw [BTree.nlev]; omega

theorem BTree.repr_ne_empty {rep : V → List Char} {t : BTree V} (h : t.LabelsAll rep Visible)
    (ht : t ≠ .nil) : t.repr rep ≠ ['/', ' ', '\\'] := by
  intro e
  have hp : t.LabelsAll rep Plain := fun p v hv => (h p v hv).plain
  rw [BTree.repr_eq ht, show ['/', ' ', '\\'] = joinLines [['/', ' ', '\\']] from rfl] at e
  have hlen := BTree.textLines_length rep t
  have hpos := BTree.nlev_pos ht
  have e := joinLines_inj (by
    intro e0; rw [e0, List.length_nil] at hlen; omega) (by simp) (BTree.textLines_one hp) (by decide) e
  rw [e, List.length_singleton] at hlen
  cases t with
  | nil => exact ht rfl
  | node l x r =>
    rw [BTree.nlev] at hlen
    have c2 : ∀ {t : BTree V}, t.nlev = 0 → t = .nil := by
      intro t h; cases t with
      | nil => rfl
      | node => rw [BTree.nlev] at h; omega
    rw [c2 (show l.nlev = 0 by omega), c2 (show r.nlev = 0 by omega)] at e
    have e2 : BTree.textLines rep (.node .nil x .nil) = [rstrip (rep x)] := by
      simp [BTree.textLines, BTree.box, nodeBox, joinBoxes]
    rw [e2, rstrip_id fun y hy => (h.root.2 y hy).1] at e
    have := h.root.2 ' ' (by rw [List.cons.inj e |>.1]; decide)
    exact absurd this.1 (by decide)

theorem BTree.repr_inj {W : Type} {rep : V → List Char} {rep' : W → List Char} {s : BTree V} {t : BTree W}
    (hs : s.LabelsAll rep Visible) (ht : t.LabelsAll rep' Visible) (h : s.repr rep = t.repr rep') :
    s.labels rep = t.labels rep' := by
  have ps : s.LabelsAll rep Plain := fun p v hv => (hs p v hv).plain
  have pt : t.LabelsAll rep' Plain := fun p v hv => (ht p v hv).plain
  by_cases e1 : s = .nil
  · by_cases e2 : t = .nil
    · rw [e1, e2]; rfl
    · rw [e1] at h
      exact absurd h.symm (BTree.repr_ne_empty ht e2)
  · by_cases e2 : t = .nil
    · rw [e2] at h
      exact absurd h (BTree.repr_ne_empty hs e1)
    · rw [BTree.repr_eq e1, BTree.repr_eq e2] at h
      have l1 := BTree.textLines_length rep s
      have l2 := BTree.textLines_length rep' t
      have n1 := BTree.nlev_pos e1
      have n2 := BTree.nlev_pos e2
      have e := joinLines_inj (by intro e0; rw [e0, List.length_nil] at l1; omega)
        (by intro e0; rw [e0, List.length_nil] at l2; omega) (BTree.textLines_one ps)
        (BTree.textLines_one pt) h
      refine BTree.labels_of_picture hs ht fun i c => ?_
      rw [← BTree.textLines_char ps, ← BTree.textLines_char pt, e]

end Extra
