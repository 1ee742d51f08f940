import Verif.Trees.TreeIterationPtr
import Verif.Trees.PtrAvl
import Verif.Trees.PtrRb
import Verif.Trees.PtrSplay
import Verif.Trees.PtrTreap
import Verif.Props.Bst
import Mathlib.Order.Fin.Basic

/-!
# Iterating over a search tree while it is changed

C104.  Specification in Verif/Trees/TreeIterationSpec.lean; the generator in Verif/Trees/TreeIteration.lean.
-/

namespace Extra
variable {N : Type} [LinearOrder N]

/-- the tree of a `BST` after a history of calls, and the answers of a generator over it, with other calls
between -/
abbrev bstIterates (ops : List (BstOp N)) (as : List (TreeAct (BstOp N))) : List (TreeStep N) :=
  (treeActs (fun s op => (pBstExec s op).2) as (pBstExecs ops PTree.empty).2 .fresh).1

/-- **C104.**  While numbers are put into a `BST` and it is read, a generator over it gives exactly the values
of the walk: each time the first value of the tree as it is then, level by level, that has not been given and is not
lost; a new value is lost if the generator has passed the value above it, or that value is lost. -/
theorem C104_history_partial (ops : List (BstOp N)) (hs : SearchTree (Bst.execs ops Bst.empty).2.root)
    (as : List (TreeAct (BstOp N))) (hc : ∀ a ∈ as, Calm a) :
    bstIterates ops as = (walkActs as (Walk.start (Bst.execs ops Bst.empty).2.root.bare)).1 :=
  (along_acts as (along_start ops hs) hc).1

/-- **C104.**  While numbers are put in and the tree is read, the generator never raises an error and never gives a
value twice. -/
theorem C104_no_repeats_partial (ops : List (BstOp N)) (hs : SearchTree (Bst.execs ops Bst.empty).2.root)
    (as : List (TreeAct (BstOp N))) (hc : ∀ a ∈ as, Calm a) :
    (TreeStep.values (bstIterates ops as)).Nodup ∧ ∀ e, .raised e ∉ bstIterates ops as := by
  rw [C104_history_partial ops hs as hc]
  obtain ⟨h1, h2, _⟩ := (sane_start hs).acts as
  refine ⟨?_, fun e => acts_quiet as _ e⟩
  have := h1.nodup
  rw [h2] at this
  simpa [Walk.start] using this

/-- **C104.**  And when it stops, it has given every value that was in the tree when it was made. -/
theorem C104_complete_partial (ops : List (BstOp N)) (hs : SearchTree (Bst.execs ops Bst.empty).2.root)
    (as : List (TreeAct (BstOp N))) (hc : ∀ a ∈ as, Calm a) (hend : .stop ∈ bstIterates ops as) :
    ∀ x, Holds (Bst.execs ops Bst.empty).2.root x → x ∈ TreeStep.values (bstIterates ops as) := by
  intro x hx
  rw [C104_history_partial ops hs as hc] at hend ⊢
  obtain ⟨h1, h2, h3⟩ := (sane_start hs).acts as
  have := h1.ended (h3 hend) x (by rw [bare_inorder]; exact (holds_iff _ _).1 hx)
  rw [h2] at this
  simpa [Walk.start] using this

/-- the tree 4, 2, 6.  After 4 has been given, 1 and 7 are put in below 2 and 6; after 2, 3 below 2 is still in
time; after 6, 0 below 1 is in time, and 5 below 6. -/
example : bstIterates [.insert (.num 4), .insert (.num 2), .insert (.num (6 : Fin 20))]
    [.next, .call (.insert (.num 1)), .call (.insert (.num 7)), .next, .call (.insert (.num 3)), .next,
      .call (.contains (.num 9)), .call (.insert (.num 0)), .call (.insert (.num 5)), .next, .next, .next, .next, .next,
      .next] =
    [.item 4, .item 2, .item 6, .item 1, .item 3, .item 5, .item 7, .item 0, .stop] := by decide +kernel

/-- in the same tree, 3 comes too late: 2 has been passed, and with it 3 is lost; all that was there is given -/
example : bstIterates [.insert (.num 4), .insert (.num 2), .insert (.num (6 : Fin 20))]
    [.next, .next, .next, .call (.insert (.num 3)), .next, .call (.insert (.num 5)), .next] =
    [.item 4, .item 2, .item 6, .stop, .stop] := by decide +kernel

example : SearchTree (Bst.execs [.insert (.num 4), .insert (.num 2), .insert (.num (6 : Fin 20))] Bst.empty).2.root ∧
    ∀ a ∈ ([.next, .call (.insert (.num 1)), .next] : List (TreeAct (BstOp (Fin 20)))), Calm a := by
  refine ⟨by unfold SearchTree; decide +kernel, ?_⟩
  intro a ha
  simp at ha
  rcases ha with rfl | rfl | rfl <;> trivial

/-- **C104.**  `for x in tree: tree.insert(next larger)` never ends: it gives every number of the
sequence. -/
theorem C104_endless (a : Nat → N) (ha : ∀ k, a k < a (k + 1)) (n : Nat) :
    bstIterates [.insert (.num (a 0))] ((List.range n).flatMap fun k => [.next, .call (.insert (.num (a (k + 1))))]) =
      (List.range n).map fun k => .item (a k) := by
  rw [C104_history_partial]
  · exact endless_acts a ha n
  · show SearchTree (BTree.node .nil (a 0, ()) .nil)
    simp [SearchTree, BTree.inorder]
  · intro x hx
    obtain ⟨k, _, hk⟩ := List.mem_flatMap.1 hx
    simp only [List.mem_cons, List.not_mem_nil, or_false] at hk
    rcases hk with rfl | rfl <;> trivial

example : bstIterates [.insert (.num 0)] ((List.range 5).flatMap fun k =>
      [.next, .call (.insert (.num (k + 1)))]) = [.item 0, .item 1, .item 2, .item 3, .item (4 : Nat)] := by
  decide +kernel

/-- **C104.**  With `remove` it fails, on a `BST`: removing the value just given makes 3 not come, though
3 stays in the tree. -/
theorem C104_remove_skips :
    bstIterates [.insert (.num 2), .insert (.num 1), .insert (.num (3 : Fin 20))]
      [.next, .call (.remove (.num 2)), .next, .next, .call .inorder] = [.item 2, .item 1, .stop] ∧
    (Bst.execs [.insert (.num 2), .insert (.num 1), .insert (.num (3 : Fin 20)), .remove (.num 2), .inorder]
      Bst.empty).1.getLast? = some (.ok (.list [1, 3], false)) := by decide +kernel

/-- **C104.**  A value that has been removed, or the values of a tree that has been cleared, may still come. -/
theorem C104_removed_comes :
    bstIterates [.insert (.num 2), .insert (.num 1), .insert (.num (3 : Fin 20))]
      [.next, .next, .call (.remove (.num 3)), .next, .next] = [.item 2, .item 1, .item 3, .stop] ∧
    bstIterates [.insert (.num 2), .insert (.num 1), .insert (.num (3 : Fin 20))]
      [.next, .call .clear, .next, .next, .next] = [.item 2, .item 1, .item 3, .stop] := by decide +kernel

/-- **C104.**  In an `AVLTree` an insertion makes the value 2, which was there, not come; or 1 come twice. -/
theorem C104_avl_fails :
    (treeActs (fun s op => (pAvlExec s op).2) [.next, .call (.insert (.num 3)), .next]
      (pAvlExecs [.insert (.num 1), .insert (.num (2 : Fin 20))] PTree.empty).2 .fresh).1 = [.item 1, .stop] ∧
    (treeActs (fun s op => (pAvlExec s op).2) [.next, .next, .call (.insert (.num 3)), .next, .next, .next]
      (pAvlExecs [.insert (.num 1), .insert (.num (2 : Fin 20))] PTree.empty).2 .fresh).1 =
      [.item 1, .item 2, .item 1, .item 3, .stop] := by decide +kernel

/-- **C104.**  So in a `RedBlackTree`. -/
theorem C104_redblack_fails :
    (treeActs (fun s op => (pRbExec s op).2) [.next, .call (.insert (.num 3)), .next]
      (pRbExecs [.insert (.num 1), .insert (.num (2 : Fin 20))] PTree.empty).2 .fresh).1 = [.item 1, .stop] ∧
    (treeActs (fun s op => (pRbExec s op).2) [.next, .next, .call (.insert (.num 3)), .next, .next, .next]
      (pRbExecs [.insert (.num 1), .insert (.num (2 : Fin 20))] PTree.empty).2 .fresh).1 =
      [.item 1, .item 2, .item 1, .item 3, .stop] := by decide +kernel

/-- **C104.**  In a `Treap` with priorities 5 and 3, an insertion with priority 9 makes 3 not come. -/
theorem C104_treap_fails :
    (treeActs (fun s op => (pTreapExec 0 s op).2) [.next, .call (.insert (.num 2) (.num 9)), .next]
      (pTreapExecs 0 [.insert (.num 1) (.num 5), .insert (.num (3 : Fin 20)) (.num (3 : Nat))] PTree.empty).2 .fresh).1 =
      [.item 1, .stop] := by decide +kernel

/-- **C104.**  In a `SplayTree` no change is needed: asking `1 in tree` makes 2 and 1 not come, or 3 come
twice. -/
theorem C104_splay_fails :
    (treeActs (fun s op => (pSplayExec s op).2) [.next, .next, .next, .next]
      (pSplayExecs [.insert (.num 1), .insert (.num 2), .insert (.num (3 : Fin 20))] PTree.empty).2 .fresh).1 =
      [.item 3, .item 2, .item 1, .stop] ∧
    (treeActs (fun s op => (pSplayExec s op).2) [.next, .call (.contains (.num 1)), .next]
      (pSplayExecs [.insert (.num 1), .insert (.num 2), .insert (.num (3 : Fin 20))] PTree.empty).2 .fresh).1 =
      [.item 3, .stop] ∧
    (treeActs (fun s op => (pSplayExec s op).2) [.next, .next, .call (.contains (.num 1)), .next, .next]
      (pSplayExecs [.insert (.num 1), .insert (.num 2), .insert (.num (3 : Fin 20))] PTree.empty).2 .fresh).1 =
      [.item 3, .item 2, .item 3, .stop] := by decide +kernel

end Extra
