import Verif.Trees.DrawLabelsProofs
import Batteries.Lean.Except

/-!
# Properties C87 and C88: the drawings of heaps and of the search trees

`bhRepr`, `rbLabel` and `treapLabel` are `Heap.__repr__` and the labels of the nodes of a `RedBlackTree`
and a `Treap` (Verif/Trees/DrawLabels.lean); `BTree.repr` is `BinaryTree.__repr__`, which draws them all.
`heapPos` is the index of the node at a path, and `GoodStr` what is asked of Python's `str`
(Verif/Trees/DrawLabelsProofs.lean); `numStr` is `str` on `int`, `inf` and `-inf`.
-/

namespace Extra
variable {N P : Type}

/-! ## C87: heaps -/

section
variable [LinearOrder N] [BoundedOrder N]

/-- C87: a heap is drawn as the binary tree whose root is the first number of the array, and whose node
for index `i` has the numbers with indices `2 * i + 1` and `2 * i + 2` as its children -/
theorem C87_picture (str : N → List Char) (xs : List N) :
    ∃ t : BTree N, bhRepr str xs = .ok (t.repr str) ∧ ∀ p, t.at p = xs[heapPos 0 p]? :=
  bhRepr_spec str xs

/-- C87: heaps with the same drawing have the same array -/
theorem C87_faithful {str : N → List Char} (h : GoodStr str) {xs ys : List N}
    (e : bhRepr str xs = bhRepr str ys) : xs = ys := by
  obtain ⟨s, hs, es⟩ := bhRepr_spec str xs
  obtain ⟨t, ht, et⟩ := bhRepr_spec str ys
  rw [hs, ht, Except.ok.injEq] at e
  have := BTree.labels_inj h.inj (BTree.repr_inj (fun _ v _ => h.visible v) (fun _ v _ => h.visible v) e)
  refine List.ext_getElem? fun k => ?_
  obtain ⟨p, rfl⟩ := heapPos_surj k
  rw [← es, ← et, this]

end

/-- C87: it holds of Python's `str` of `int`, `inf` and `-inf` -/
theorem C87_numbers {xs ys : List (WithBot (WithTop Int))} (e : bhRepr numStr xs = bhRepr numStr ys) :
    xs = ys :=
  C87_faithful numStr_good e

example : bhRepr intStr [0, 4, 1, 7, 9, -3, 2] =
    .ok "    __0___\n   /      \\\n  4       _1\n / \\     /  \\\n7   9   -3   2".toList := by decide +kernel

example : heapPos 0 [true, false] = 5 := rfl

/-! ## C88: search trees -/

/-- C88: different red-black trees — in their shape, numbers or colours — are drawn differently -/
theorem C88_redblack {str : N → List Char} (h : GoodStr str) {s t : BTree (N × Color)}
    (e : s.repr (rbLabel str) = t.repr (rbLabel str)) : s = t :=
  BTree.labels_inj (rbLabel_good h).1
    (BTree.repr_inj (fun _ v _ => (rbLabel_good h).2 v) (fun _ v _ => (rbLabel_good h).2 v) e)

/-- C88: with `SHOW_PRIORITY` set, different treaps — in their shape, numbers or priorities — are drawn
differently -/
theorem C88_treap {str : N → List Char} {strP : P → List Char} (h : GoodStr str) (hP : GoodStr strP)
    {s t : BTree (N × P)} (e : s.repr (treapLabel true str strP) = t.repr (treapLabel true str strP)) :
    s = t :=
  BTree.labels_inj (treapLabel_good h hP).1
    (BTree.repr_inj (fun _ v _ => (treapLabel_good h hP).2 v) (fun _ v _ => (treapLabel_good h hP).2 v) e)

/-- C88: the drawing of any search tree with plain labels — `BST`, `AVLTree`, `SplayTree`, or a `Treap`
with `SHOW_PRIORITY` not set — tells its shape and numbers; `X` is what else the nodes hold -/
theorem C88_plain {X : Type} {str : N → List Char} (h : GoodStr str) {s t : BTree (N × X)}
    (e : s.repr (fun x => str x.1) = t.repr (fun x => str x.1)) :
    ∀ p, (s.at p).map Prod.fst = (t.at p).map Prod.fst := by
  intro p
  have := BTree.repr_inj (fun _ v _ => h.visible v.1) (fun _ v _ => h.visible v.1) e
  have hp := congrArg (·.at p) this
  simp only [BTree.labels_at] at hp
  have inj : Function.Injective (Option.map str) := Option.map_injective h.inj
  apply inj
  simpa [Option.map_map, Function.comp_def] using hp

/-- the hypothesis holds of Python's `str` of `int`, `inf` and `-inf` -/
theorem C88_numbers : GoodStr numStr := numStr_good

/-- priorities are not drawn unless `SHOW_PRIORITY` is set: these treaps differ, their drawings do not -/
theorem C88_treap_hidden :
    (BTree.node .nil ((1 : Int), (2 : Int)) .nil).repr (treapLabel false intStr intStr) =
      (BTree.node .nil ((1 : Int), (3 : Int)) .nil).repr (treapLabel false intStr intStr) ∧
    (BTree.node .nil ((1 : Int), (2 : Int)) .nil) ≠ (BTree.node .nil ((1 : Int), (3 : Int)) .nil) := by
  decide +kernel

example : (BTree.node (.node .nil ((3 : Int), Color.red) .nil) (11, Color.black) (.node .nil (20, Color.red) .nil)).repr
    (rbLabel intStr) = "   _11|B_\n  /      \\\n3|R      20|R".toList := by decide +kernel

example : (BTree.node (.node .nil ((3 : Int), (-1 : Int)) .nil) (11, 100) .nil).repr
    (treapLabel true intStr intStr) = "    ___11|P:100\n   /\n3|P:-1".toList := by decide +kernel

end Extra
