import Verif.Trees.DrawBinProofs

/-!
# Properties C83 and C84: the drawing of `BinaryTree`

`BTree.repr` is `BinaryTree.__repr__`, which all search trees and heaps use too; `rep` gives the label
of a node (Verif/Trees/Draw.lean).  `Ink` says what should be drawn where, `charAt` is the character in
a row and column of a text, blank outside of it, and `BTree.labels` is the tree of the labels
(Verif/Trees/DrawBinProofs.lean).
-/

namespace Extra
variable {V W : Type}

/-! ## C83: the picture -/

/-- C83: a tree whose labels are not empty and have no white space but blanks is drawn as follows.  The
labels have columns of their own, in the order of an inorder traversal with at least one column between
them.  The nodes of depth `d` are in row `2 * d`; the row below has a `/` next to the middle of the label
of each left child and a `\` next to that of each right child, and bars lead from there to the label of
the parent.  There is nothing else. -/
theorem C83_picture {rep : V → List Char} {t : BTree V} (hne : t ≠ .nil) (h : t.LabelsAll rep Plain) :
    ∃ (col : List Bool → Nat) (lines : List (List Char)), t.repr rep = joinLines lines ∧
      lines.length + 1 = 2 * t.nlev ∧ (∀ l ∈ lines, '\n' ∉ l) ∧
      (∀ p q v w, t.at p = some v → t.at q = some w → inLt p q = true →
        col p + (rep v).length < col q) ∧
      (∀ i c a, Ink rep t col i c a → charAt lines i c = a) ∧
      (∀ i c, (∀ a, ¬ Ink rep t col i c a) → charAt lines i c = ' ') := by
  have H : t.LabelsAll rep (· ≠ []) := fun p v hv => (h p v hv).1
  refine ⟨t.colOf rep, t.textLines rep, BTree.repr_eq hne, ?_, BTree.textLines_one h,
    fun p q v w hp hq hlt => BTree.col_inorder H hp hq hlt, fun i c a k => ?_, fun i c k => ?_⟩
  · have := BTree.nlev_pos hne
    rw [BTree.textLines_length]; omega
  · rw [BTree.textLines_char h, BTree.ink H k]
  · rw [BTree.textLines_char h, BTree.noInk H k]

/-- C83: the empty tree -/
theorem C83_empty (rep : V → List Char) : (BTree.nil : BTree V).repr rep = "/ \\".toList := rfl

/-- C83: the lines that `_print_subtree` builds are equally long, and `__repr__` leaves out only blanks
at their ends and the last line, which is blank -/
theorem C83_block {rep : V → List Char} {t : BTree V} (hne : t ≠ .nil) (h : t.LabelsAll rep Plain) :
    (∀ l ∈ (t.box rep).lines, l.length = (t.box rep).width) ∧
    (∀ i c, charAt (t.textLines rep) i c = charAt (t.box rep).lines i c) := by
  have H : t.LabelsAll rep (· ≠ []) := fun p v hv => (h p v hv).1
  exact ⟨((BTree.box_good H).1 ((BTree.box_good H).2.2.2 hne)).lines, BTree.textLines_char h⟩

/-- C83 does not extend to empty labels: a child with an empty label is not connected to its parent,
and the drawing is that of the parent alone with blank lines below -/
theorem C83_empty_label :
    (BTree.node (.node .nil "".toList .nil) "a".toList .nil).repr id = "a\n\n".toList ∧
    ¬ ∃ (col : List Bool → Nat), ∀ i c a,
      Ink id (BTree.node (.node .nil "".toList .nil) "a".toList .nil) col i c a →
      charAt ["a".toList, [], []] i c = a := by
  refine ⟨by decide +kernel, ?_⟩
  rintro ⟨col, h⟩
  have := h _ _ _ (Ink.slash (rep := id) (p := []) (v := "".toList)
    (t := BTree.node (.node .nil "".toList .nil) "a".toList .nil) rfl)
  revert this
  generalize middle _ _ + 1 = c
  intro h
  have h0 : charAt ["a".toList, [], []] 1 c = ' ' := rfl
  rw [show 2 * ([] : List Bool).length + 1 = 1 from rfl, h0] at h
  exact absurd h (by decide)

private def clan : BTree (List Char) :=
  .node (.node (.node .nil "You".toList .nil) "Father".toList (.node .nil "Sis".toList .nil))
    "Grandpa".toList (.node .nil "Uncle".toList (.node .nil "Al".toList .nil))

example : clan.repr id =
    "        _______Grandpa__\n       /                \\\n   _Father_            Uncle\n  /        \\                \\\nYou        Sis               Al".toList := by
  decide +kernel

private theorem clan_labels : clan.LabelsAll id Visible := by
  have nil : (BTree.nil : BTree (List Char)).LabelsAll id Visible := fun p v hv => by
    rw [BTree.nil_at] at hv; cases hv
  have node : ∀ {l r : BTree (List Char)} {v : List Char}, l.LabelsAll id Visible → Visible v →
      r.LabelsAll id Visible → (BTree.node l v r).LabelsAll id Visible := by
    intro l r v hl hv hr p w hw
    match p, hw with
    | [], hw => cases hw; exact hv
    | false :: p, hw => exact hl p w hw
    | true :: p, hw => exact hr p w hw
  have leaf : ∀ {v : List Char}, Visible v → (BTree.node .nil v .nil).LabelsAll id Visible :=
    fun hv => node nil hv nil
  refine node (node (leaf ?_) ?_ (leaf ?_)) ?_ (node nil ?_ (leaf ?_)) <;>
    (unfold Visible; decide +kernel)

/-- the hypotheses of C83 and C84 hold of it -/
example : clan ≠ .nil ∧ clan.LabelsAll id Plain ∧ clan.LabelsAll id Visible :=
  ⟨by simp [clan], fun p v hv => (clan_labels p v hv).plain, clan_labels⟩

/-! ## C84: reading a drawing -/

/-- C84: if labels are not empty and contain neither white space nor `_` (like the labels of numbers),
different trees are drawn differently -/
theorem C84_faithful {rep : V → List Char} {rep' : W → List Char} {s : BTree V} {t : BTree W}
    (hs : s.LabelsAll rep Visible) (ht : t.LabelsAll rep' Visible) (h : s.repr rep = t.repr rep') :
    s.labels rep = t.labels rep' :=
  BTree.repr_inj hs ht h

/-- C84 does not extend to labels with blanks: these trees are drawn alike -/
theorem C84_blank : (BTree.node .nil "a".toList .nil).repr id = "a".toList ∧
    (BTree.node .nil "a ".toList .nil).repr id = "a".toList := by
  decide +kernel

end Extra
