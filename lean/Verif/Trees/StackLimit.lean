import Verif.Trees.BuildCost
import Verif.Trees.RedBlackBuild
import Verif.Trees.SplayProofs

/-!
# Insertion with a limit on nested calls — /repo/extra/trees/bst.py

`_insert_node` calls itself once for each node on the way down (bst.py:702, :709), and Python raises `RecursionError`
when the stack has no room for another call (`sys.getrecursionlimit()`, 1000 if not set).  The limit is a parameter
here: the number of nested calls of `_insert_node` there is room for, together with the small functions it calls.
-/

set_option linter.unusedSectionVars false

namespace Extra
variable {N X S : Type} [LinearOrder N]

/-- `_insert_node` with room for so many nested calls, `none` for `RecursionError` — bst.py:694-713.  For an empty
tree the new root is made without a call (bst.py:807-809). -/
def BTree.insertNodeIn (v : N × X) : Nat → BTree (N × X) → Option (BTree (N × X) × Bool)
  | _, .nil => some (.node .nil v .nil, true)
  | 0, .node _ _ _ => none
  | room + 1, .node l w r =>
    if v.1 = w.1 then some (.node l w r, false)
    else if v.1 < w.1 then
      match l with
      | .nil => some (.node (.node .nil v .nil) w r, true)
      | .node ll lv lr => ((BTree.node ll lv lr).insertNodeIn v room).map fun p => (.node p.1 w r, p.2)
    else
      match r with
      | .nil => some (.node l w (.node .nil v .nil), true)
      | .node rl rv rr => ((BTree.node rl rv rr).insertNodeIn v room).map fun p => (.node l w p.1, p.2)

/-- `insert` of numbers one after the other into an object: which of the calls raised `RecursionError`, and the object
left.  The exception comes before anything is changed (bst.py:704-705, :711-712).  `root` is the tree of the object, `x`
what a new node has beside its number, `insert` the call when there is room. -/
def insertsIn (root : S → BTree (N × X)) (x : X) (insert : S → N → S) (room : Nat) : List N → S → List Bool × S
  | [], s => ([], s)
  | v :: vs, s =>
    match (root s).insertNodeIn (v, x) room with
    | none => (true :: (insertsIn root x insert room vs s).1, (insertsIn root x insert room vs s).2)
    | some _ =>
      (false :: (insertsIn root x insert room vs (insert s v)).1, (insertsIn root x insert room vs (insert s v)).2)

/-- `BST` — bst.py:806-811 -/
def bstInsertsIn (room : Nat) : List N → Bst N Unit → List Bool × Bst N Unit :=
  insertsIn Bst.root () (fun t v => (t.insertNum v ()).1) room

/-- `AVL.insert` with room enough; it does not raise (C43) -/
def avlStep (t : Bst N Nat) (v : N) : Bst N Nat :=
  match avlInsertNum t v with
  | .ok (t', _) => t'
  | .error _ => t

/-- `RedBlackTree.insert` with room enough; it does not raise (C54) -/
def rbStep (t : Bst N Color) (v : N) : Bst N Color :=
  match rbInsertNum t v with
  | .ok (t', _) => t'
  | .error _ => t

/-- `SplayTree.insert` with room enough; it does not raise (C47) -/
def splayStep (t : Bst N Unit) (v : N) : Bst N Unit :=
  match splayInsert t (.num v) with
  | .ok (_, t') => t'
  | .error _ => t

/-- `SplayTree`: `_insert_node` first, then `_splay`, for which there is taken to be room — splay_tree.py:444-450 -/
def splayInsertsIn (room : Nat) : List N → Bst N Unit → List Bool × Bst N Unit :=
  insertsIn Bst.root () splayStep room

/-- `AVL`: rotations come after `_insert_node` and do not call themselves — avl.py:418-431 -/
def avlInsertsIn (room : Nat) : List N → Bst N Nat → List Bool × Bst N Nat :=
  insertsIn Bst.root 0 avlStep room

/-- `RedBlackTree`: `_insert_node` first, then `__recolor`, for which there is taken to be room — red_black_tree.py:573-584 -/
def rbInsertsIn (room : Nat) : List N → Bst N Color → List Bool × Bst N Color :=
  insertsIn Bst.root .red rbStep room

/-! ## Helper lemmas -/

theorem insertNodeIn_eq (v : N × X) : ∀ (room : Nat) (t : BTree (N × X)),
    t.insertNodeIn v room = if t.insertLooks v.1 ≤ room then some (t.insertNode v) else none
  | _, .nil => by simp [BTree.insertNodeIn, BTree.insertLooks, BTree.insertNode]
  | 0, .node l w r => by simp [BTree.insertNodeIn, BTree.insertLooks]
  | room + 1, .node l w r => by
    have il := insertNodeIn_eq v room l
    have ir := insertNodeIn_eq v room r
    rw [insertNode_node, BTree.insertLooks]
    rw [BTree.insertNodeIn.eq_def]
    simp only
    by_cases h1 : v.1 = w.1
    · simp [h1]
    · by_cases h2 : v.1 < w.1
      · simp only [h1, h2, if_false, if_true]
        cases l with
        | nil => simp [BTree.insertLooks, BTree.insertNode]
        | node a b c =>
          simp only [il]
          by_cases h3 : (BTree.node a b c).insertLooks v.1 ≤ room
          · rw [if_pos h3, if_pos (by omega)]; rfl
          · rw [if_neg h3, if_neg (by omega)]; rfl
      · simp only [h1, h2, if_false]
        cases r with
        | nil => simp [BTree.insertLooks, BTree.insertNode]
        | node a b c =>
          simp only [ir]
          by_cases h3 : (BTree.node a b c).insertLooks v.1 ≤ room
          · rw [if_pos h3, if_pos (by omega)]; rfl
          · rw [if_neg h3, if_neg (by omega)]; rfl

theorem insertsIn_cons (root : S → BTree (N × X)) (x : X) (insert : S → N → S) (room : Nat) (v : N) (vs : List N) (s : S) :
    insertsIn root x insert room (v :: vs) s =
      if (root s).insertLooks v ≤ room then
        (false :: (insertsIn root x insert room vs (insert s v)).1, (insertsIn root x insert room vs (insert s v)).2)
      else (true :: (insertsIn root x insert room vs s).1, (insertsIn root x insert room vs s).2) := by
  rw [insertsIn, insertNodeIn_eq]
  split
  · rename_i h; rw [if_neg (by simpa using h)]
  · rename_i h
    by_cases h' : (root s).insertLooks v ≤ room
    · rw [if_pos h']
    · simp [h'] at h

theorem insertsIn_append (root : S → BTree (N × X)) (x : X) (insert : S → N → S) (room : Nat) (ws : List N) :
    ∀ (vs : List N) (s : S), insertsIn root x insert room (vs ++ ws) s =
      ((insertsIn root x insert room vs s).1 ++ (insertsIn root x insert room ws (insertsIn root x insert room vs s).2).1,
       (insertsIn root x insert room ws (insertsIn root x insert room vs s).2).2)
  | [], _ => rfl
  | v :: vs, s => by
    rw [List.cons_append, insertsIn_cons, insertsIn_cons]
    split <;> rw [insertsIn_append root x insert room ws vs] <;> rfl

/-- without an exception the object is the one made by the calls without a limit -/
theorem insertsIn_all (root : S → BTree (N × X)) (x : X) (insert : S → N → S) (room : Nat) : ∀ (vs : List N) (s : S),
    true ∉ (insertsIn root x insert room vs s).1 → (insertsIn root x insert room vs s).2 = vs.foldl insert s
  | [], _, _ => rfl
  | v :: vs, s, h => by
    rw [insertsIn_cons] at h ⊢
    split at h
    · rename_i h'
      rw [if_pos h', List.foldl_cons]
      exact insertsIn_all root x insert room vs _ (fun hm => h (List.mem_cons_of_mem _ hm))
    · simp at h

/-- the numbers `i, ..., i + n - 1`, each the right child of the one before -/
def runDown (i : Nat) : Nat → BTree (Nat × Unit)
  | 0 => .nil
  | n + 1 => .node .nil (i, ()) (runDown (i + 1) n)

theorem runDown_step (i n : Nat) (c : Int) : splayStep ⟨runDown (i + 1) n, c⟩ i = ⟨runDown i (n + 1), c + 1⟩ := by
  cases n with
  | zero => rfl
  | succ n =>
    simp [splayStep, splayInsert, validNum, runDown, insertNode_node, BTree.insertNode, BTree.insertPath, BTree.splay,
      BTree.descend, splaying, sideOk, bind, Except.bind, pure, Except.pure]

theorem runDown_fold : ∀ (k n : Nat) (c : Int),
    ((List.range k).reverse).foldl splayStep ⟨runDown k n, c⟩ = ⟨runDown 0 (n + k), c + k⟩
  | 0, n, c => by simp
  | k + 1, n, c => by
    rw [List.range_succ, List.reverse_append]
    simp only [List.reverse_cons, List.reverse_nil, List.nil_append, List.singleton_append, List.foldl_cons]
    rw [runDown_step, runDown_fold k]
    congr 1
    · congr 1; omega
    · push_cast; ring

theorem runDown_looks : ∀ (n i v : Nat), i + n ≤ v → (runDown i n).insertLooks v = n
  | 0, _, _, _ => rfl
  | n + 1, i, v, h => by
    rw [runDown, BTree.insertLooks, if_neg (by show ¬ _; omega), if_neg (by show ¬ _; omega), runDown_looks n (i + 1) v (by omega)]
    omega

end Extra
