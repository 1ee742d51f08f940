import Verif.Trees.BstReadsProofs
import Verif.Props.Bst
import Verif.Props.Avl
import Verif.Props.RedBlack
import Verif.Props.Splay
import Verif.Props.Treap
import Batteries.Lean.Except

/-!
# The read methods of the search trees agree with each other: C94

`Views` is the specification (ViewsSpec.lean).
-/

namespace Extra
variable {N X P : Type} [LinearOrder N]

/-- C94 for `BST`: after any history of calls the answers of the read methods fit together; the numbers are
those of `inorder_traverse`, and as many as `len` says. -/
theorem C94_bst (ops : List (BstOp N)) :
    ∃ ks rows pre post h n, Views (bstRead (Bst.execs ops Bst.empty).2.root) ks rows pre post h n ∧
      ((Bst.execs ops Bst.empty).2.exec .inorder).1 = .ok (.list ks, false) ∧
      ((Bst.execs ops Bst.empty).2.exec .len).1 = .ok (.int ks.length, false) := by
  refine ⟨_, _, _, _, _, _, read_views _, rfl, ?_⟩
  simp only [Bst.exec, C41_length ops, BTree.keys_length_size]

example : let t := (Bst.execs ([4, 2, 6, 1, 3, 5].map (fun v : Nat => BstOp.insert (.num v))) Bst.empty).2
    bstRead t.root .levels = .ok (.rows [[4], [2, 6], [1, 3, 5]], false) ∧
    bstRead t.root .postorder = .ok (.list [1, 3, 2, 5, 6, 4], false) ∧
    bstRead t.root .leftView = .ok (.list [4, 2, 1], false) ∧
    bstRead t.root .rightView = .ok (.list [4, 6, 5], false) ∧
    bstRead t.root .isStrict = .ok (.bool false, false) ∧
    bstRead t.root .leaves = .ok (.int 3, false) := by decide +kernel

/-- C94 for `SplayTree`: in any state the answers fit together. -/
theorem C94_splay (t : Bst N Unit) :
    ∃ ks rows pre post h n, Views (bstRead t.root) ks rows pre post h n ∧
      splayExec t .inorder = .ok (.ok (.list ks, false), t) :=
  ⟨_, _, _, _, _, _, read_views _, rfl⟩

/-- C94 for `Treap`: after any history of calls that raise nothing the model leaves out, the answers fit
together, and the numbers are those of the map the history gives. -/
theorem C94_treap [LinearOrder P] (m1 : P) (ops : List (TreapOp N P)) (rs : List (BstRes N)) (t : Bst N P)
    (h : treapExecs m1 ops Bst.empty = .ok (rs, t)) :
    ∃ rows pre post h n,
      Views (bstRead t.root) ((mapExecs ops []).2.map Prod.fst) rows pre post h n := by
  obtain ⟨-, k⟩ := C51_history m1 ops rs t h
  have hv := read_views t.root
  rw [BTree.keys, k.pairs] at hv
  exact ⟨_, _, _, _, _, hv⟩

/-- C94 for `RedBlackTree`: in any state the answers fit together, and while the invariants hold the height
is at most twice the logarithm of the number of nodes: `2 ^ (height + 1) ≤ (nodes + 1) ^ 2`. -/
theorem C94_rb (t : Bst N Color) :
    ∃ ks rows pre post h n, Views (bstRead t.root) ks rows pre post h n ∧
      rbExec t .inorder = .ok (.ok (.list ks, false), t) ∧
      (RedBlackOk t.root → ks ≠ [] → 2 ^ (h + 1) ≤ (ks.length + 1) ^ 2) := by
  refine ⟨_, _, _, _, _, _, read_views _, rfl, fun hc hk => ?_⟩
  obtain ⟨⟨n, hn⟩, hr⟩ := (redBlackOk_iff _).1 hc
  obtain ⟨h1, h2⟩ := hn.bounds
  rw [hr] at h2
  have h3 : t.root.nlev - 1 + 1 ≤ 2 * n := by
    obtain ⟨s, k⟩ := t
    cases s with
    | nil => simp at hk
    | node l w r =>
      rw [BTree.nlev] at h2 ⊢
      simp at h2
      omega
  rw [BTree.keys_length_size]
  calc 2 ^ (t.root.nlev - 1 + 1) ≤ 2 ^ (2 * n) := Nat.pow_le_pow_right (by omega) h3
    _ = (2 ^ n) ^ 2 := by rw [Nat.mul_comm, Nat.pow_mul]
    _ ≤ (t.root.size + 1) ^ 2 := Nat.pow_le_pow_left h1 2

example : RedBlackOk rbSample.root ∧ bstRead rbSample.root .height = .ok (.int 2, false) ∧
    bstRead rbSample.root .depthFirst = .ok (.list [4, 2, 1, 3, 6, 5, 7], false) ∧ 2 ^ (2 + 1) ≤ (7 + 1) ^ 2 := by
  refine ⟨?_, by decide +kernel⟩
  rw [rbSample_eq, redBlackOk_iff]
  exact ⟨⟨2, 1, rfl, ⟨0, rfl, ⟨0, rfl, rfl, rfl, by simp⟩, ⟨0, rfl, rfl, rfl, by simp⟩, by simp⟩,
    ⟨0, rfl, ⟨0, rfl, rfl, rfl, by simp⟩, ⟨0, rfl, rfl, rfl, by simp⟩, by simp⟩, by simp⟩, rfl⟩

/-- C94 for `AVL`: while the heights kept are right the answers fit together; while the tree is balanced
`is_balanced` says so, and `fib (height + 3) ≤ nodes + 1`. -/
theorem C94_avl (t : Bst N Nat) (hh : HeightsTrue t.root) :
    ∃ ks rows pre post h n, Views (avlRead t.root) ks rows pre post h n ∧
      avlExec t .inorder = .ok (.ok (.list ks, false), t) ∧
      (Balanced t.root → avlRead t.root .isBalanced = .ok (.bool true, decide (ks = [])) ∧
        (ks ≠ [] → Nat.fib (h + 3) ≤ ks.length + 1)) := by
  refine ⟨_, _, _, _, _, _, avl_views _ hh, rfl, fun hb => ⟨?_, fun hk => ?_⟩⟩
  · obtain ⟨s, k⟩ := t
    obtain ⟨w, e⟩ := (C43_queries ⟨s, k⟩ hh).2 hb
    cases s with
    | nil => rfl
    | node l x r =>
      simp only [avlExec, Except.ok.injEq, Prod.mk.injEq, BstVal.bool.injEq, and_true] at e
      rw [avlRead, e.1]
      simp [BTree.avlIsBalanced]
  · have hf := fib_le t.root ((avlOk_iff _).2 ⟨hh, hb⟩)
    rw [hOk.nlev ((heightsTrue_iff _).1 hh)] at hf
    have : t.root.nlev - 1 + 3 = t.root.nlev + 2 := by
      obtain ⟨s, k⟩ := t
      cases s with
      | nil => simp at hk
      | node l w r => rw [BTree.nlev]; omega
    rw [this]
    exact hf

example : HeightsTrue avlSample.root ∧ Balanced avlSample.root ∧
    avlRead avlSample.root .height = .ok (.int 2, false) ∧
    avlRead avlSample.root .levels = .ok (.rows [[3], [1, 5], [0, 2, 4, 6]], false) ∧
    avlRead avlSample.root .isPerfect = .ok (.bool true, false) ∧ Nat.fib (2 + 3) ≤ 7 + 1 := by
  have e : avlSample.root = .node (.node (.node .nil (0, 0) .nil) (1, 1) (.node .nil (2, 0) .nil)) (3, 2)
      (.node (.node .nil (4, 0) .nil) (5, 1) (.node .nil (6, 0) .nil)) := by decide +kernel
  have := (avlOk_iff avlSample.root).1 (by rw [e]; simp [avlOk, BTree.hl])
  exact ⟨this.1, this.2, by decide +kernel⟩

end Extra
