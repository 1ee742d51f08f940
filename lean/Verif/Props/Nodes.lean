import Verif.Trees.NodeSetProofs
import Verif.Trees.PtrAvl

/-!
# The setters of nodes: C92

`LinksAgree` (Verif/Trees/NodeSetProofs.lean) says that links come in pairs: if a node is a child of another
then the other is its parent, and the other way round.
-/

set_option linter.unusedSectionVars false

namespace Extra
variable {N X V : Type} [LinearOrder N]

/-! ## C92

Full statement: `a.set_left(c)` and `a.set_right(c)` make `c` the child and `a` the parent, change nothing
else, keep the links of all nodes in pairs, and refuse what is not a node.  The pairs are kept exactly when
`c` is the child already, or `a` has no child there and `c` no parent; otherwise the old child keeps `a` as
its parent, or the old parent keeps `c` as its child. -/

/-- C92: what `a.set_left(c)` does -/
theorem C92_set_left (C : PClass X) (s : PTree N X) (a : Addr) (n : PNode N X) (c : Option Addr)
    (h : s.node a = some n) (hc : ∀ x, c = some x → ∃ m, s.node x = some m)
    (hr : ∀ x, n.right = some x → ∃ m, s.node x = some m) :
    ∃ s' n', nodeSetLeft C a (c.elim .none .node) s = (.ok (), s') ∧ s'.node a = some n' ∧
      n'.left = c ∧ n'.right = n.right ∧ n'.data = n.data ∧ (c ≠ some a → n'.parent = n.parent) ∧
      (∀ x m, c = some x → s.node x = some m → ∃ m', s'.node x = some m' ∧ m'.parent = some a ∧
        m'.data = m.data ∧ (x ≠ a → m'.left = m.left ∧ m'.right = m.right ∧ m'.ext = m.ext)) ∧
      (∀ x, x ≠ a → c ≠ some x → s'.node x = s.node x) ∧
      s'.root = s.root ∧ s'.length = s.length := by
  have e : nodeSetLeft C a (c.elim .none .node) s = pSetLeft C (some a) c s := by cases c <;> rfl
  refine ⟨_, _, e.trans (setLeft_eq C h hc hr), if_pos rfl, rfl, rfl, rfl, fun k => if_neg k, ?_, ?_, rfl, rfl⟩
  · rintro x m rfl hm
    by_cases hx : x = a
    · subst hx
      rw [h] at hm
      cases hm
      exact ⟨_, if_pos rfl, if_pos rfl, rfl, fun k => absurd rfl k⟩
    · refine ⟨{ m with parent := some a }, ?_, rfl, rfl, fun _ => ⟨rfl, rfl, rfl⟩⟩
      rw [put_node, afterLeft, if_neg hx, if_pos rfl, hm]
      rfl
  · intro x hx hcx
    rw [put_node, afterLeft, if_neg hx, if_neg hcx]

/-- C92: what `a.set_right(c)` does -/
theorem C92_set_right (C : PClass X) (s : PTree N X) (a : Addr) (n : PNode N X) (c : Option Addr)
    (h : s.node a = some n) (hc : ∀ x, c = some x → ∃ m, s.node x = some m)
    (hl : ∀ x, n.left = some x → ∃ m, s.node x = some m) :
    ∃ s' n', nodeSetRight C a (c.elim .none .node) s = (.ok (), s') ∧ s'.node a = some n' ∧
      n'.right = c ∧ n'.left = n.left ∧ n'.data = n.data ∧ (c ≠ some a → n'.parent = n.parent) ∧
      (∀ x m, c = some x → s.node x = some m → ∃ m', s'.node x = some m' ∧ m'.parent = some a ∧
        m'.data = m.data ∧ (x ≠ a → m'.left = m.left ∧ m'.right = m.right ∧ m'.ext = m.ext)) ∧
      (∀ x, x ≠ a → c ≠ some x → s'.node x = s.node x) ∧
      s'.root = s.root ∧ s'.length = s.length := by
  have e : nodeSetRight C a (c.elim .none .node) s = pSetRight C (some a) c s := by cases c <;> rfl
  refine ⟨_, _, e.trans (setRight_eq C h hc hl), if_pos rfl, rfl, rfl, rfl, fun k => if_neg k, ?_, ?_, rfl, rfl⟩
  · rintro x m rfl hm
    by_cases hx : x = a
    · subst hx
      rw [h] at hm
      cases hm
      exact ⟨_, if_pos rfl, if_pos rfl, rfl, fun k => absurd rfl k⟩
    · refine ⟨{ m with parent := some a }, ?_, rfl, rfl, fun _ => ⟨rfl, rfl, rfl⟩⟩
      rw [put_node, afterRight, if_neg hx, if_pos rfl, hm]
      rfl
  · intro x hx hcx
    rw [put_node, afterRight, if_neg hx, if_neg hcx]

/-- C92: exactly when the links stay in pairs -/
theorem C92_pairs_partial (C : PClass X) (s : PTree N X) (H : LinksAgree s.node) (a : Addr) (n : PNode N X)
    (c : Option Addr) (h : s.node a = some n) (hc : ∀ x, c = some x → ∃ m, s.node x = some m) :
    (LinksAgree (nodeSetLeft C a (c.elim .none .node) s).2.node ↔ n.left = c ∨
      (n.left = none ∧ ∀ x m, c = some x → s.node x = some m → m.parent = none)) ∧
    (LinksAgree (nodeSetRight C a (c.elim .none .node) s).2.node ↔ n.right = c ∨
      (n.right = none ∧ ∀ x m, c = some x → s.node x = some m → m.parent = none)) := by
  have e1 : nodeSetLeft C a (c.elim .none .node) s = pSetLeft C (some a) c s := by cases c <;> rfl
  have e2 : nodeSetRight C a (c.elim .none .node) s = pSetRight C (some a) c s := by cases c <;> rfl
  obtain ⟨A1, A2, _, _⟩ := H a n h
  rw [e1, e2, setLeft_eq C h hc (fun x hx => (A2 x hx).imp fun _ k => k.1),
    setRight_eq C h hc (fun x hx => (A1 x hx).imp fun _ k => k.1)]
  exact ⟨agree_left C H h hc, agree_right C H h hc⟩

/-- C92: what is not a node is refused, and nothing changes -/
theorem C92_refused (C : PClass X) (s : PTree N X) (a : Addr) :
    nodeSetLeft C a .other s = (.error .typeError, s) ∧ nodeSetRight C a .other s = (.error .typeError, s) ∧
    nodeSetParent a .other s = (.error .typeError, s) := ⟨rfl, rfl, rfl⟩

/-- C92: `set_left` and `set_right` of an `AVLNode` make its height the larger of those of its sides: none for
a side without a child, one more than the child's height otherwise -/
theorem C92_avl_height (s : PTree N Nat) (a : Addr) (n : PNode N Nat) (c : Option Addr)
    (h : s.node a = some n) (hc : ∀ x, c = some x → ∃ m, s.node x = some m)
    (hl : ∀ x, n.left = some x → ∃ m, s.node x = some m) (hr : ∀ x, n.right = some x → ∃ m, s.node x = some m) :
    let side := fun (p : Option Addr) => ((p.bind s.node).map (fun m => m.ext + 1)).getD 0
    (((nodeSetLeft avlClass a (c.elim .none .node) s).2.node a).map (·.ext) =
      some (max (side c) (side n.right))) ∧
    (((nodeSetRight avlClass a (c.elim .none .node) s).2.node a).map (·.ext) =
      some (max (side n.left) (side c))) := by
  have e1 : nodeSetLeft avlClass a (c.elim .none .node) s = pSetLeft avlClass (some a) c s := by cases c <;> rfl
  have e2 : nodeSetRight avlClass a (c.elim .none .node) s = pSetRight avlClass (some a) c s := by cases c <;> rfl
  have hs : ∀ p : Option Addr, sideHeight (extAt s.node p) = ((p.bind s.node).map (fun m => m.ext + 1)).getD 0 := by
    intro p
    cases p with
    | none => rfl
    | some x => cases hx : s.node x <;> simp [extAt, hx, sideHeight, Nat.add_comm]
  intro side
  rw [e1, e2, setLeft_eq _ h hc hr, setRight_eq _ h hc hl]
  simp only [put_node, afterLeft, afterRight, if_true, Option.map_some, avlClass, hs]
  exact ⟨rfl, rfl⟩

/-- C92: `has_one_child` -/
theorem C92_has_one_child (s : PTree N X) (a : Addr) (n : PNode N X) (h : s.node a = some n) :
    pHasOneChild (some a) s = (.ok (decide (n.left = none ↔ n.right ≠ none)), s) := by
  rw [pHasOneChild, pm_bind_ok (pm_isLeaf h), pm_bind_ok (pm_node h)]
  cases n.left <;> cases n.right <;> simp

/-- C92: the children of a `TreeNode`: `set_child` adds one at the end, `set_children` replaces them all, and both
leave everything as it is if an argument is not a node -/
theorem C92_tree_node (h : Addr → Option (KNode V)) (a : Addr) (n : KNode V) (hn : h a = some n) :
    (∀ c, kSetChild h a (.node c) = (.ok (), upd h a (some ⟨n.data, n.children ++ [c]⟩))) ∧
    (∀ cs : List Addr, kSetChildren h a (.items (cs.map .node)) = (.ok (), upd h a (some ⟨n.data, cs⟩))) ∧
    (∀ x, (∀ c, x ≠ .node c) → kSetChild h a x = (.error .typeError, h)) ∧
    (∀ l, ∀ x ∈ l, (∀ c, x ≠ .node c) → kSetChildren h a (.items l) = (.error .typeError, h)) ∧
    kSetChildren h a .notIterable = (.error .typeError, h) := by
  refine ⟨fun c => ?_, fun cs => ?_, fun x hx => ?_, fun l x hx hx' => ?_, rfl⟩
  · rw [kSetChild, hn]
  · rw [kSetChildren, collectNodes_nodes, hn]; rfl
  · cases x with
    | node c => exact absurd rfl (hx c)
    | none => rfl
    | other => rfl
  · rw [kSetChildren, collectNodes_other hx hx']

/-- three nodes: 0 has the left child 1, and 2 stands alone -/
def threeNodes : PTree Nat Nat :=
  ⟨fun x => if x = 0 then some ⟨5, 1, some 1, none, none⟩ else if x = 1 then some ⟨3, 0, none, none, some 0⟩
    else if x = 2 then some ⟨8, 0, none, none, none⟩ else none, 3, some 0, 3, false⟩

theorem threeNodes_agree : LinksAgree threeNodes.node := by
  intro a n h
  simp only [threeNodes] at h ⊢
  split at h
  · cases h; simp [*]
  · split at h
    · cases h; simp [*]
    · split at h
      · cases h; simp
      · cases h

example : (nodeSetRight avlClass 0 (.node 2) threeNodes).1 = .ok () ∧
    (nodeSetRight avlClass 0 (.node 2) threeNodes).2.node 0 = some ⟨5, 1, some 1, some 2, none⟩ ∧
    (nodeSetRight avlClass 0 (.node 2) threeNodes).2.node 2 = some ⟨8, 0, none, none, some 0⟩ ∧
    (pHasOneChild (some 0) threeNodes).1 = .ok true ∧
    LinksAgree (nodeSetRight avlClass 0 (.node 2) threeNodes).2.node := by
  refine ⟨by decide +kernel, by decide +kernel, by decide +kernel, by decide +kernel, ?_⟩
  exact (C92_pairs_partial avlClass threeNodes threeNodes_agree 0 _ (some 2) rfl
    (fun x hx => by cases hx; exact ⟨_, rfl⟩)).2.2 (Or.inr ⟨rfl, fun x m hx hm => by cases hx; cases hm; rfl⟩)

/-- C92, the negation: the old child keeps its parent; a child that is taken over stays with its old parent
too; `set_parent` sets one of the two links. -/
theorem C92_stale :
    LinksAgree threeNodes.node ∧
    ((nodeSetLeft avlClass 0 (.node 2) threeNodes).2.node 0).map (·.left) = some (some 2) ∧
    ((nodeSetLeft avlClass 0 (.node 2) threeNodes).2.node 1).map (·.parent) = some (some 0) ∧
    ((nodeSetLeft avlClass 0 .none threeNodes).2.node 1).map (·.parent) = some (some 0) ∧
    ((nodeSetRight avlClass 2 (.node 1) threeNodes).2.node 1).map (·.parent) = some (some 2) ∧
    ((nodeSetRight avlClass 2 (.node 1) threeNodes).2.node 0).map (·.left) = some (some 1) ∧
    ((nodeSetParent 2 (.node 0) threeNodes).2.node 2).map (·.parent) = some (some 0) ∧
    ((nodeSetParent 2 (.node 0) threeNodes).2.node 0).map (fun n => (n.left, n.right)) = some (some 1, none) :=
  ⟨threeNodes_agree, by decide +kernel, by decide +kernel, by decide +kernel, by decide +kernel, by decide +kernel,
    by decide +kernel, by decide +kernel⟩

end Extra
