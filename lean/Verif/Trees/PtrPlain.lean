import Verif.Trees.PtrOps
import Verif.Trees.SplayProofs

/-!
# Node objects of `BSTNode`: the results are those of the value model (no property content)

Trees with addresses are trees, so the value model runs on them: `insertNode` and `remove` keep the address of
each node with its place.  Forgetting the addresses (`mapExt`) commutes with all of it.
-/

set_option linter.unusedSimpArgs false
set_option linter.unusedSectionVars false

namespace Extra
variable {N X Y : Type} [LinearOrder N]

/-! ## A class that adds nothing -/

theorem relinked_plain (l r : ATree N X) (w : N × (X × Addr)) :
    relinked (plainClass X) l w r = .node l w r := rfl

theorem attached_plain (t : ATree N X) (fs : List (AFrame N X)) : attached (plainClass X) t fs = fs := by
  cases fs <;> rfl

theorem moved_plain (w u : N × (X × Addr)) : moved (plainClass X) w u = (u.1, w.2) := rfl

theorem sinkC_plain (t : ATree N X) : sinkC (plainClass X) t = t.sink := by
  induction t with
  | nil => rfl
  | node l w r ihl ihr =>
    cases l with
    | nil =>
      cases r with
      | nil => rfl
      | node a u b => cases a <;> cases b <;> simp only [sinkC, BTree.sink, moved_plain, relinked_plain, ihr]
    | node a u b => cases a <;> cases b <;> simp only [sinkC, BTree.sink, moved_plain, relinked_plain, ihl]

theorem replace_above (t : BTree (N × X)) (p : List Bool) (s : BTree (N × X)) (h : t.walk p ≠ .nil) :
    plug s (t.above p) = t.replace p s := by
  induction t generalizing p with
  | nil => rcases p with _ | ⟨_, p⟩ <;> exact absurd rfl h
  | node l w r ihl ihr =>
    rcases p with _ | ⟨_ | _, p⟩
    · rfl
    · simp only [BTree.walk] at h
      simp only [BTree.replace, BTree.above, plug_append, ihl p h, plug]; rfl
    · simp only [BTree.walk] at h
      simp only [BTree.replace, BTree.above, plug_append, ihr p h, plug]; rfl

/-- the new leaf under the nodes above it -/
theorem insert_above_new (v : N × X) (t : BTree (N × X)) (h : t.walk (t.insertPath v.1) = .nil) :
    plug (.node .nil v .nil) (t.above (t.insertPath v.1)) = (t.insertNode v).1 ∧ (t.insertNode v).2 = true := by
  induction t with
  | nil => exact ⟨rfl, rfl⟩
  | node l w r ihl ihr =>
    rw [insertNode_node]
    rw [BTree.insertPath] at h ⊢
    split_ifs with e1 e2
    · rw [if_pos e1] at h; simp [BTree.walk] at h
    · rw [if_neg e1, if_pos e2] at h
      simp only [BTree.walk] at h
      simp only [BTree.above, plug_append, (ihl h).1, (ihl h).2, plug, and_true]; rfl
    · rw [if_neg e1, if_neg e2] at h
      simp only [BTree.walk] at h
      simp only [BTree.above, plug_append, (ihr h).1, (ihr h).2, plug, and_true]; rfl

theorem insert_above_found (v : N × X) (t : BTree (N × X)) (h : t.walk (t.insertPath v.1) ≠ .nil) :
    t.insertNode v = (t, false) := by
  induction t with
  | nil => exact absurd rfl h
  | node l w r ihl ihr =>
    rw [insertNode_node]
    rw [BTree.insertPath] at h
    split_ifs with e1 e2
    · rfl
    · rw [if_neg e1, if_pos e2] at h; rw [ihl h]
    · rw [if_neg e1, if_neg e2] at h; rw [ihr h]

theorem sink_root (l r : BTree (N × X)) (w : N × X) (d : N) :
    (BTree.node l (d, w.2) r).sink = (BTree.node l w r).sink := by
  cases l <;> cases r <;> simp [BTree.sink]

/-- `takeMin` is sinking at the end of the way to the minimum -/
theorem takeMin_above (t : BTree (N × X)) {a b : BTree (N × X)} {u : N × X}
    (h : t.walk t.minPath = .node a u b) :
    t.takeMin = some (u.1, plug (BTree.node a u b).sink (t.above t.minPath)) := by
  induction t with
  | nil => simp [BTree.walk, BTree.minPath] at h
  | node l w r ihl ihr =>
    cases l with
    | nil =>
      simp only [BTree.minPath, BTree.walk, BTree.node.injEq] at h
      obtain ⟨rfl, rfl, rfl⟩ := h
      simp [BTree.takeMin, BTree.minPath, BTree.above, plug]
    | node ll lv lr =>
      have := ihl h
      simp only [BTree.takeMin, this, BTree.minPath, BTree.above, plug_append, plug]; rfl

theorem takeMax_above (t : BTree (N × X)) {a b : BTree (N × X)} {u : N × X}
    (h : t.walk t.maxPath = .node a u b) :
    t.takeMax = some (u.1, plug (BTree.node a u b).sink (t.above t.maxPath)) := by
  induction t with
  | nil => simp [BTree.walk, BTree.maxPath] at h
  | node l w r ihl ihr =>
    cases r with
    | nil =>
      simp only [BTree.maxPath, BTree.walk, BTree.node.injEq] at h
      obtain ⟨rfl, rfl, rfl⟩ := h
      simp [BTree.takeMax, BTree.maxPath, BTree.above, plug]
    | node rl rv rr =>
      have := ihr h
      simp only [BTree.takeMax, this, BTree.maxPath, BTree.above, plug_append, plug]; rfl

theorem removeRoot_above (l r : BTree (N × X)) (w : N × X) {d : Bool} {q : List Bool} {a b : BTree (N × X)}
    {u : N × X} (hq : (BTree.node l w r).replacementPath = d :: q)
    (h : (BTree.node l w r).walk (d :: q) = .node a u b) :
    (BTree.node l w r).removeRoot = plug (BTree.node a u b).sink ((BTree.node l (u.1, w.2) r).above (d :: q)) := by
  cases r with
  | node rl rv rr =>
    simp only [BTree.replacementPath, List.cons.injEq] at hq
    obtain ⟨rfl, rfl⟩ := hq
    simp only [BTree.removeRoot, takeMin_above _ h, BTree.above, plug_append, plug]; rfl
  | nil =>
    cases l with
    | nil => simp [BTree.replacementPath] at hq
    | node ll lv lr =>
      simp only [BTree.replacementPath, List.cons.injEq] at hq
      obtain ⟨rfl, rfl⟩ := hq
      simp only [BTree.removeRoot, takeMax_above _ h, BTree.above, plug_append, plug]; rfl

theorem sink_leaf (t : BTree (N × X)) (h : t.isLeaf = true) : t.sink = .nil := by
  cases t with
  | nil => simp [BTree.isLeaf] at h
  | node l w r => cases l <;> cases r <;> simp [BTree.isLeaf] at h ⊢; rfl

/-- removal on node objects without extensions is `remove` -/
theorem removeZ_plain (v : N) (t : ATree N X) (h : t.dataAt (t.search v) = some v) :
    plug (removeZ (plainClass X) (t.search v) t).1 (removeZ (plainClass X) (t.search v) t).2 = (t.remove v).1 := by
  have hw : t.walk (t.search v) ≠ .nil := by
    intro hc; simp [BTree.dataAt, hc] at h
  rw [BTree.remove, if_pos h]
  simp only [removeZ, descend_eq, List.append_nil]
  rw [← replace_above _ _ _ hw]
  cases he : t.walk (t.search v) with
  | nil => exact absurd he hw
  | node a u b =>
    cases hlf : (BTree.node a u b).isLeaf with
    | true =>
      obtain ⟨rfl, rfl⟩ := isLeaf_iff.mp hlf
      simp only [if_true, attached_plain]; rfl
    | false =>
      have hnl : ¬(a = .nil ∧ b = .nil) := by rw [← isLeaf_iff (w := u)]; simp [hlf]
      obtain ⟨d, q, a', u', b', hq, hw'⟩ := replacementPath_walk a b u hnl
      have hs := swapAt_descend (plainClass X) hw' (t.above (t.search v))
      rw [descend_eq, descend_eq, Prod.mk.injEq] at hs
      simp only [hq, hs.1, hs.2, Bool.false_eq_true, if_false, moved_plain]
      rw [removeRoot_above a b u hq hw', ← plug_append, sinkC_plain, sink_root, attached_plain]
      cases hlf' : (BTree.node a' (u.1, u'.2) b').isLeaf with
      | true =>
        rw [← sink_root _ _ u' u.1, sink_leaf _ hlf']
        simp only [if_true]
      | false => simp only [Bool.false_eq_true, if_false]

/-! ## Forgetting the addresses -/

/-- other extensions -/
def BTree.mapExt (f : X → Y) : BTree (N × X) → BTree (N × Y)
  | .nil => .nil
  | .node l w r => .node (l.mapExt f) (w.1, f w.2) (r.mapExt f)

section
variable (f : X → Y)

theorem mapExt_nil : (BTree.nil : BTree (N × X)).mapExt f = .nil := rfl

theorem mapExt_node (l r : BTree (N × X)) (w : N × X) :
    (BTree.node l w r).mapExt f = .node (l.mapExt f) (w.1, f w.2) (r.mapExt f) := rfl

theorem mapExt_search (v : N) (t : BTree (N × X)) : (t.mapExt f).search v = t.search v := by
  induction t with
  | nil => rfl
  | node l w r ihl ihr =>
    cases l <;> cases r <;> simp only [mapExt_node, mapExt_nil] at ihl ihr ⊢ <;> simp only [BTree.search, ihl, ihr]

theorem mapExt_walk (t : BTree (N × X)) (p : List Bool) : (t.mapExt f).walk p = (t.walk p).mapExt f := by
  induction t generalizing p with
  | nil => rcases p with _ | ⟨_, p⟩ <;> rfl
  | node l w r ihl ihr => rcases p with _ | ⟨_ | _, p⟩ <;> simp only [mapExt_node, BTree.walk, ihl, ihr]

theorem mapExt_dataAt (t : BTree (N × X)) (p : List Bool) : (t.mapExt f).dataAt p = t.dataAt p := by
  unfold BTree.dataAt
  rw [mapExt_walk]
  cases t.walk p <;> rfl

theorem mapExt_insertNode (v : N × X) (t : BTree (N × X)) :
    (t.mapExt f).insertNode (v.1, f v.2) = ((t.insertNode v).1.mapExt f, (t.insertNode v).2) := by
  induction t with
  | nil => rfl
  | node l w r ihl ihr =>
    rw [mapExt_node, insertNode_node, insertNode_node, ihl, ihr]
    split_ifs <;> rfl

theorem mapExt_insertPath (v : N) (t : BTree (N × X)) : (t.mapExt f).insertPath v = t.insertPath v := by
  induction t with
  | nil => rfl
  | node l w r ihl ihr => simp only [mapExt_node, BTree.insertPath, ihl, ihr]

theorem mapExt_sink (t : BTree (N × X)) : (t.mapExt f).sink = t.sink.mapExt f := by
  induction t with
  | nil => rfl
  | node l w r ihl ihr =>
    cases l <;> cases r <;> simp only [mapExt_node, mapExt_nil] at ihl ihr ⊢ <;>
      simp only [BTree.sink, ihl, ihr, mapExt_node, mapExt_nil]

theorem mapExt_takeMin (t : BTree (N × X)) :
    (t.mapExt f).takeMin = t.takeMin.map fun p => (p.1, p.2.mapExt f) := by
  induction t with
  | nil => rfl
  | node l w r ihl ihr =>
    cases l with
    | nil =>
      have := mapExt_sink f (.node .nil w r)
      simp only [mapExt_node, mapExt_nil] at this
      simp only [mapExt_node, mapExt_nil, BTree.takeMin, this, Option.map_some]
    | node a u b =>
      simp only [mapExt_node] at ihl ⊢
      simp only [BTree.takeMin, ihl]
      cases (BTree.node a u b).takeMin <;> simp [mapExt_node]

theorem mapExt_takeMax (t : BTree (N × X)) :
    (t.mapExt f).takeMax = t.takeMax.map fun p => (p.1, p.2.mapExt f) := by
  induction t with
  | nil => rfl
  | node l w r ihl ihr =>
    cases r with
    | nil =>
      have := mapExt_sink f (.node l w .nil)
      simp only [mapExt_node, mapExt_nil] at this
      simp only [mapExt_node, mapExt_nil, BTree.takeMax, this, Option.map_some]
    | node a u b =>
      simp only [mapExt_node] at ihr ⊢
      simp only [BTree.takeMax, ihr]
      cases (BTree.node a u b).takeMax <;> simp [mapExt_node]

theorem mapExt_removeRoot (t : BTree (N × X)) : (t.mapExt f).removeRoot = t.removeRoot.mapExt f := by
  cases t with
  | nil => rfl
  | node l w r =>
    cases r with
    | node a u b =>
      have := mapExt_takeMin f (.node a u b)
      simp only [mapExt_node] at this ⊢
      simp only [BTree.removeRoot, this]
      cases (BTree.node a u b).takeMin <;> simp [mapExt_node, mapExt_nil]
    | nil =>
      cases l with
      | nil => rfl
      | node a u b =>
        have := mapExt_takeMax f (.node a u b)
        simp only [mapExt_node, mapExt_nil] at this ⊢
        simp only [BTree.removeRoot, this]
        cases (BTree.node a u b).takeMax <;> simp [mapExt_node, mapExt_nil]

theorem mapExt_replace (t : BTree (N × X)) (p : List Bool) (s : BTree (N × X)) :
    (t.mapExt f).replace p (s.mapExt f) = (t.replace p s).mapExt f := by
  induction t generalizing p with
  | nil => rcases p with _ | ⟨_, p⟩ <;> rfl
  | node l w r ihl ihr => rcases p with _ | ⟨_ | _, p⟩ <;> simp only [mapExt_node, BTree.replace, ihl, ihr]

theorem mapExt_remove (v : N) (t : BTree (N × X)) :
    (t.mapExt f).remove v = ((t.remove v).1.mapExt f, (t.remove v).2) := by
  unfold BTree.remove
  rw [mapExt_search, mapExt_dataAt, mapExt_walk, mapExt_removeRoot, mapExt_replace]
  split <;> rfl

theorem mapExt_minNode (t : BTree (N × X)) : (t.mapExt f).minNode = t.minNode.map fun w => (w.1, f w.2) := by
  induction t with
  | nil => rfl
  | node l w r ihl ihr =>
    cases l <;> simp only [mapExt_node, mapExt_nil] at ihl ⊢ <;> simp only [BTree.minNode, ihl, Option.map_some]

theorem mapExt_maxNode (t : BTree (N × X)) : (t.mapExt f).maxNode = t.maxNode.map fun w => (w.1, f w.2) := by
  induction t with
  | nil => rfl
  | node l w r ihl ihr =>
    cases r <;> simp only [mapExt_node, mapExt_nil] at ihr ⊢ <;> simp only [BTree.maxNode, ihr, Option.map_some]

theorem mapExt_keys (t : BTree (N × X)) : (t.mapExt f).keys = t.keys := by
  induction t with
  | nil => rfl
  | node l w r ihl ihr => rw [mapExt_node, BTree.keys_node, BTree.keys_node, ihl, ihr]

theorem mapExt_invert (t : BTree (N × X)) : (t.mapExt f).invert = t.invert.mapExt f := by
  induction t with
  | nil => rfl
  | node l w r ihl ihr => simp only [mapExt_node, BTree.invert, ihl, ihr]

end

end Extra
