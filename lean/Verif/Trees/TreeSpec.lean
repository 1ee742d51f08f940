import Verif.Trees.Tree

/-!
# Positions in trees: the specification of `Tree` and `BinaryTree`

A node of a tree is named by the path from the root: child numbers for `Tree`, left (`false`) or right
(`true`) for `BinaryTree`.  The documented orders of nodes are orders on paths.
-/

namespace Extra
variable {V : Type}

/-- the subtree at a path -/
def RTree.sub : RTree V → List Nat → Option (RTree V)
  | t, [] => some t
  | .node _ cs, i :: p =>
    match cs[i]? with
    | some c => c.sub p
    | none => none

/-- the subtree of a `Tree` at a path -/
def treeSub : Option (RTree V) → List Nat → Option (RTree V)
  | none, _ => none
  | some t, p => t.sub p

/-- the value at a path of a `Tree` -/
def treeAt (t : Option (RTree V)) (p : List Nat) : Option V := (treeSub t p).map RTree.data

/-- depth first, children from left to right -/
def lexLt : List Nat → List Nat → Bool
  | [], [] => false
  | [], _ :: _ => true
  | _ :: _, [] => false
  | i :: p, j :: q => if i = j then lexLt p q else decide (i < j)

/-- level by level, each from left to right -/
def levelLt (p q : List Nat) : Bool :=
  decide (p.length < q.length) || (decide (p.length = q.length) && lexLt p q)

/-- `vs` are the values of all nodes, each node once, in the given order -/
def Visits {P : Type} (before : P → P → Bool) (at' : P → Option V) (vs : List V) : Prop :=
  ∃ ps : List P, ps.Pairwise (fun p q => before p q = true) ∧ (∀ p, p ∈ ps ↔ (at' p).isSome) ∧
    vs.map some = ps.map at'

/-- there are exactly `n` paths with the property -/
def CountIs {P : Type} (holds : P → Prop) (n : Nat) : Prop :=
  ∃ ps : List P, ps.Nodup ∧ (∀ p, p ∈ ps ↔ holds p) ∧ ps.length = n

/-! ## Binary trees -/

/-- the subtree at a path -/
def BTree.sub : BTree V → List Bool → BTree V
  | t, [] => t
  | .nil, _ :: _ => .nil
  | .node l _ r, b :: p => if b then r.sub p else l.sub p

/-- the value at the root -/
def BTree.root? : BTree V → Option V
  | .nil => none
  | .node _ v _ => some v

/-- the value at a path -/
def BTree.at (t : BTree V) (p : List Bool) : Option V := (t.sub p).root?

/-- node, left subtree, right subtree -/
def preLt : List Bool → List Bool → Bool
  | [], [] => false
  | [], _ :: _ => true
  | _ :: _, [] => false
  | a :: p, b :: q => if a = b then preLt p q else !a

/-- left subtree, node, right subtree -/
def inLt : List Bool → List Bool → Bool
  | [], [] => false
  | [], b :: _ => b
  | a :: _, [] => !a
  | a :: p, b :: q => if a = b then inLt p q else !a

/-- left subtree, right subtree, node -/
def postLt : List Bool → List Bool → Bool
  | [], [] => false
  | [], _ :: _ => false
  | _ :: _, [] => true
  | a :: p, b :: q => if a = b then postLt p q else !a

/-- level by level, each from left to right -/
def breadthLt (p q : List Bool) : Bool :=
  decide (p.length < q.length) || (decide (p.length = q.length) && preLt p q)

/-- a node without children -/
def BTree.leafAt (t : BTree V) (p : List Bool) : Prop :=
  (t.at p).isSome ∧ t.at (p ++ [false]) = none ∧ t.at (p ++ [true]) = none

/-- a node with both children -/
def BTree.fullAt (t : BTree V) (p : List Bool) : Prop :=
  (t.at p).isSome ∧ (t.at (p ++ [false])).isSome ∧ (t.at (p ++ [true])).isSome

/-- all leaves are at the same depth and all other nodes have two children -/
def BTree.Perfect (t : BTree V) : Prop :=
  (∀ p q, t.leafAt p → t.leafAt q → p.length = q.length) ∧
  (∀ p, (t.at p).isSome → t.leafAt p ∨ t.fullAt p)

/-- every node has no children or two -/
def BTree.Strict (t : BTree V) : Prop := ∀ p, (t.at p).isSome → t.leafAt p ∨ t.fullAt p

/-- the documented balance: the depths of any two leaves differ by at most one -/
def BTree.Balanced (t : BTree V) : Prop :=
  ∀ p q, t.leafAt p → t.leafAt q → p.length ≤ q.length + 1

/-! ## Nested lists -/

/-- the value a node created from the entry stores: any object but `None` and containers of the
library, strings with newlines escaped -/
inductive Stored [PyData V] : Nested V → Nested V → Prop
  | val (v : V) : Stored (.atom (.val v)) (.atom (.val (PyData.norm v)))
  | seq (xs : List (Nested V)) : Stored (.seq xs) (.seq xs)

/-- the nested list describes the binary tree -/
inductive Describes [PyData V] : Nested V → BTree (Nested V) → Prop
  | atom {x y} (hv : Stored (.atom x) y) : Describes (.atom x) (.node .nil y .nil)
  | one {x y} (hv : Stored x y) : Describes (.seq [x]) (.node .nil y .nil)
  | two {x y a l} (hv : Stored x y) (hl : Describes a l) : Describes (.seq [x, a]) (.node l y .nil)
  | three {x y a b l r} (hv : Stored x y) (hl : Describes a l) (hr : Describes b r) :
      Describes (.seq [x, a, b]) (.node l y r)

/-- an entry that cannot be a node's value -/
inductive BadValue : Nested V → Prop
  | none : BadValue (.atom .none)
  | extra : BadValue (.atom .extra)

/-- some nested list that would become a node is empty, too long or starts with a bad value -/
inductive Malformed : Nested V → Prop
  | atom {x} (h : BadValue (.atom x)) : Malformed (.atom x)
  | empty : Malformed (.seq [])
  | long (x y z w xs) : Malformed (.seq (x :: y :: z :: w :: xs))
  | value {x xs} (h : BadValue x) : Malformed (.seq (x :: xs))
  | left {x a xs} (h : Malformed a) : Malformed (.seq (x :: a :: xs))
  | right {x a b xs} (h : Malformed b) : Malformed (.seq (x :: a :: b :: xs))

mutual
/-- no container of the library occurs as an entry -/
def Nested.noExtra : Nested V → Bool
  | .atom .extra => false
  | .atom _ => true
  | .seq xs => Nested.noExtraAll xs
def Nested.noExtraAll : List (Nested V) → Bool
  | [] => true
  | x :: xs => x.noExtra && Nested.noExtraAll xs
end

/-- the number of levels -/
def BTree.nlev : BTree V → Nat
  | .nil => 0
  | .node l _ r => max l.nlev r.nlev + 1

end Extra
