import Verif.Trees.PtrRbRemove

/-!
# `RedBlackTree` on node objects: the cases of `remove`
-/

set_option linter.unusedSimpArgs false
set_option linter.unusedSectionVars false

namespace Extra
variable {N : Type} [LinearOrder N]

/-! ## The removal of `RedBlackTree` in terms of the nodes above -/

theorem takeMinAll_above (t : BTree (N × Color)) {a b : BTree (N × Color)} {u : N × Color}
    (h : t.walk t.minPath = .node a u b) :
    t.takeMinAll = some (u, plug (BTree.node a u b).sinkAll (t.above t.minPath)) := by
  induction t with
  | nil => simp [BTree.walk, BTree.minPath] at h
  | node l w r ihl ihr =>
    cases l with
    | nil =>
      simp only [BTree.minPath, BTree.walk, BTree.node.injEq] at h
      obtain ⟨rfl, rfl, rfl⟩ := h
      simp [BTree.takeMinAll, BTree.minPath, BTree.above, plug]
    | node ll lv lr =>
      have := ihl h
      simp only [BTree.takeMinAll, this, BTree.minPath, BTree.above, plug_append, plug]; rfl

theorem takeMaxAll_above (t : BTree (N × Color)) {a b : BTree (N × Color)} {u : N × Color}
    (h : t.walk t.maxPath = .node a u b) :
    t.takeMaxAll = some (u, plug (BTree.node a u b).sinkAll (t.above t.maxPath)) := by
  induction t with
  | nil => simp [BTree.walk, BTree.maxPath] at h
  | node l w r ihl ihr =>
    cases r with
    | nil =>
      simp only [BTree.maxPath, BTree.walk, BTree.node.injEq] at h
      obtain ⟨rfl, rfl, rfl⟩ := h
      simp [BTree.takeMaxAll, BTree.maxPath, BTree.above, plug]
    | node rl rv rr =>
      have := ihr h
      simp only [BTree.takeMaxAll, this, BTree.maxPath, BTree.above, plug_append, plug]; rfl

/-- the number of the root -/
def BTree.top? : BTree (N × Color) → Option N
  | .nil => none
  | .node _ x _ => some x.1

/-- what follows the transplant: `hole` is the subtree of the replacement -/
def tailVal (hole : BTree (N × Color)) (F : List (Above N Color)) (num : Option N) : Except Err (BTree (N × Color)) :=
  match (plug hole F).descend (wayOf F).dropLast [] with
  | (.nil, _) => .error .attributeError
  | (.node a x b, fs) => do
    let u ← rbDouble rbRounds a x b fs (rbDbn num a x b)
    pure u.blacken

/-- the answer and the tree of `remove` for a leaf `x` below `F` -/
def leafVal (x : N × Color) (F : List (Above N Color)) : Except Err (BstRes N × BTree (N × Color)) :=
  match x.2 with
  | .red => .ok (.ok (.unit, false), plug .nil F)
  | .black => do
    let u ← tailVal .nil F none
    pure (.ok (.unit, false), u)

/-- the answer and the tree of `remove` for a node `x` with the replacement `u` -/
def replVal (x : N × Color) (sd : Bool) (o : BTree (N × Color)) (F : List (Above N Color)) (a : BTree (N × Color))
    (u : N × Color) (b : BTree (N × Color)) (G : List (Above N Color)) :
    Except Err (BstRes N × BTree (N × Color)) :=
  match u.2, x.2 with
  | .red, .red => .ok (.ok (.unit, false), plug (BTree.node a u b).sinkAll (G ++ ⟨sd, u, o⟩ :: F))
  | .black, .red => .ok (.error .valueError, plug (.node a u b) (G ++ ⟨sd, x, o⟩ :: F))
  | .red, .black => .ok (.ok (.unit, false), plug (BTree.node a u b).sinkAll (G ++ ⟨sd, (u.1, .black), o⟩ :: F))
  | .black, .black => do
    let t ← tailVal (BTree.node a u b).sinkAll (G ++ ⟨sd, u, o⟩ :: F) (some ((BTree.node a u b).sinkAll.top?.getD x.1))
    pure (.ok (.unit, false), t)

theorem dataAt_plug (t : BTree (N × Color)) (F : List (Above N Color)) : (plug t F).dataAt (wayOf F) = t.top? := by
  unfold BTree.dataAt
  rw [plug_walk]
  cases t <;> rfl

theorem rbRemoveTree_other {v : N} {t l r : BTree (N × Color)} {x : N × Color}
    (h : t.walk (t.search v) = .node l x r) (hv : x.1 ≠ v) : rbRemoveTree v t = .ok (.ok (.unit, true), t) := by
  simp only [rbRemoveTree, h, if_pos hv]

theorem rbRemoveTree_leaf {v : N} {t : BTree (N × Color)} {x : N × Color}
    (h : t.walk (t.search v) = .node .nil x .nil) (hv : x.1 = v) :
    rbRemoveTree v t = leafVal x (t.above (t.search v)) := by
  have hw : t.walk (t.search v) ≠ .nil := by rw [h]; simp
  obtain ⟨k, c⟩ := x
  have hc : rbChoice (.nil : BTree (N × Color)) .nil = .none := rfl
  simp only [rbRemoveTree, h, if_neg (not_not.mpr hv), hc, rbTransplant, leafVal]
  cases c with
  | red => simp only [replace_above _ _ _ hw]
  | black =>
    simp only [rbCase3, tailVal, rbReplacementPath, List.append_nil, wayOf_above _ _ hw, replace_above _ _ _ hw]
    rfl

theorem rbRemoveTree_successor {v : N} {t l r a b : BTree (N × Color)} {x u : N × Color}
    (h : t.walk (t.search v) = .node l x r) (hv : x.1 = v) (hc : rbChoice l r = .successor)
    (hu : r.walk r.minPath = .node a u b) :
    rbRemoveTree v t = replVal x false l (t.above (t.search v)) a u b (r.above r.minPath) := by
  have hw : t.walk (t.search v) ≠ .nil := by rw [h]; simp
  have hwr : r.walk r.minPath ≠ .nil := by rw [hu]; simp
  have hz : plug (BTree.node l x r) (t.above (t.search v)) = t := by rw [← h]; exact plug_above _ _ hw
  have hzr : plug (BTree.node a u b) (r.above r.minPath) = r := by rw [← hu]; exact plug_above _ _ hwr
  have e : ∀ w : N × Color, plug (BTree.node l w (plug (BTree.node a u b).sinkAll (r.above r.minPath)))
      (t.above (t.search v)) = plug (BTree.node a u b).sinkAll (r.above r.minPath ++ ⟨false, w, l⟩ :: t.above (t.search v)) := by
    intro w
    simp [plug_append, plug]
  have hway : ∀ w : N × Color, wayOf (r.above r.minPath ++ (⟨false, w, l⟩ :: t.above (t.search v) : List (Above N Color))) =
      t.search v ++ true :: r.minPath := by
    intro w
    simp [wayOf_append, wayOf, wayOf_above _ _ hw, wayOf_above _ _ hwr]
  simp only [rbRemoveTree, h, if_neg (not_not.mpr hv), hc, rbTransplant, takeMinAll_above _ hu, replVal]
  obtain ⟨k, c⟩ := x
  obtain ⟨m, d⟩ := u
  cases c <;> cases d
  case red.red => simp only [← replace_above _ _ _ hw, e]
  case red.black => simp only [plug_append, plug, Bool.false_eq_true, if_false, hzr, hz]
  case black.red => simp only [← replace_above _ _ _ hw, BTree.blacken, e]
  case black.black =>
    have hd := dataAt_plug (BTree.node a (m, .black) b).sinkAll (r.above r.minPath ++ ⟨false, (m, .black), l⟩ :: t.above (t.search v))
    rw [hway] at hd
    simp only [rbCase3, tailVal, rbReplacementPath, hway, ← replace_above _ _ _ hw, e, hd]
    rw [show k = v from hv]
    rfl

theorem rbRemoveTree_predecessor {v : N} {t l r a b : BTree (N × Color)} {x u : N × Color}
    (h : t.walk (t.search v) = .node l x r) (hv : x.1 = v) (hc : rbChoice l r = .predecessor)
    (hu : l.walk l.maxPath = .node a u b) :
    rbRemoveTree v t = replVal x true r (t.above (t.search v)) a u b (l.above l.maxPath) := by
  have hw : t.walk (t.search v) ≠ .nil := by rw [h]; simp
  have hwr : l.walk l.maxPath ≠ .nil := by rw [hu]; simp
  have hz : plug (BTree.node l x r) (t.above (t.search v)) = t := by rw [← h]; exact plug_above _ _ hw
  have hzr : plug (BTree.node a u b) (l.above l.maxPath) = l := by rw [← hu]; exact plug_above _ _ hwr
  have e : ∀ w : N × Color, plug (BTree.node (plug (BTree.node a u b).sinkAll (l.above l.maxPath)) w r)
      (t.above (t.search v)) = plug (BTree.node a u b).sinkAll (l.above l.maxPath ++ ⟨true, w, r⟩ :: t.above (t.search v)) := by
    intro w
    simp [plug_append, plug]
  have hway : ∀ w : N × Color, wayOf (l.above l.maxPath ++ (⟨true, w, r⟩ :: t.above (t.search v) : List (Above N Color))) =
      t.search v ++ false :: l.maxPath := by
    intro w
    simp [wayOf_append, wayOf, wayOf_above _ _ hw, wayOf_above _ _ hwr]
  simp only [rbRemoveTree, h, if_neg (not_not.mpr hv), hc, rbTransplant, takeMaxAll_above _ hu, replVal]
  obtain ⟨k, c⟩ := x
  obtain ⟨m, d⟩ := u
  cases c <;> cases d
  case red.red => simp only [← replace_above _ _ _ hw, e]
  case red.black => simp only [plug_append, plug, if_true, hzr, hz]
  case black.red => simp only [← replace_above _ _ _ hw, BTree.blacken, e]
  case black.black =>
    have hd := dataAt_plug (BTree.node a (m, .black) b).sinkAll (l.above l.maxPath ++ ⟨true, (m, .black), r⟩ :: t.above (t.search v))
    rw [hway] at hd
    simp only [rbCase3, tailVal, rbReplacementPath, hway, ← replace_above _ _ _ hw, e, hd]
    rw [show k = v from hv]
    rfl

/-! ## `_find_replacement` -/

theorem rbChoice_cases (l r : BTree (N × Color)) :
    (rbChoice l r = .none ∧ l = .nil ∧ r = .nil) ∨ (rbChoice l r = .successor ∧ r ≠ .nil) ∨
      (rbChoice l r = .predecessor ∧ l ≠ .nil) := by
  cases hr : r with
  | nil =>
    cases hl : l with
    | nil => left; exact ⟨rfl, rfl, rfl⟩
    | node a w b =>
      obtain ⟨a', u, b', hu⟩ : ∃ a' u b', (BTree.node a w b).walk (BTree.node a w b).maxPath = .node a' u b' := by
        cases he : (BTree.node a w b).walk (BTree.node a w b).maxPath with
        | nil => exact absurd he (maxPath_walk _ (by simp))
        | node a' u b' => exact ⟨_, _, _, rfl⟩
      have := maxNode_walk _ hu
      right; right
      obtain ⟨k, c⟩ := u
      simp only [rbChoice, BTree.minNode, this]
      cases c <;> simp
  | node c w d =>
    obtain ⟨a', u, b', hu⟩ : ∃ a' u b', (BTree.node c w d).walk (BTree.node c w d).minPath = .node a' u b' := by
      cases he : (BTree.node c w d).walk (BTree.node c w d).minPath with
      | nil => exact absurd he (minPath_walk _ (by simp))
      | node a' u b' => exact ⟨_, _, _, rfl⟩
    have := minNode_walk _ hu
    obtain ⟨k, e⟩ := u
    cases e with
    | red => right; left; simp [rbChoice, this]
    | black =>
      cases hl : l with
      | nil => right; left; simp [rbChoice, this, BTree.maxNode]
      | node f g h =>
        obtain ⟨a', u, b', hu⟩ : ∃ a' u b', (BTree.node f g h).walk (BTree.node f g h).maxPath = .node a' u b' := by
          cases he : (BTree.node f g h).walk (BTree.node f g h).maxPath with
          | nil => exact absurd he (maxPath_walk _ (by simp))
          | node a' u b' => exact ⟨_, _, _, rfl⟩
        have h2 := maxNode_walk _ hu
        obtain ⟨k', c'⟩ := u
        cases c'
        · right; left; simp [rbChoice, this, h2]
        · right; right; simp [rbChoice, this, h2]

/-- the replacement for a node with the children `l` and `r` -/
def choicePtr (l r : ATree N Color) : Choice → Option Addr
  | .none => none
  | .successor => (r.walk r.minPath).ptr
  | .predecessor => (l.walk l.maxPath).ptr

theorem pm_rbFindReplacement {s : PTree N Color} {p : Option Addr} {l r : ATree N Color} {x : N × (Color × Addr)}
    (h : PRep s.node p (.node l x r)) (fuel : Nat) (hf : (BTree.node l x r).addrs.length ≤ fuel) :
    pRbFindReplacement fuel (some x.2.2) s = (.ok (choicePtr l r (rbChoice l.forget r.forget)), s) := by
  have hlen : l.addrs.length ≤ fuel ∧ r.addrs.length ≤ fuel := by
    simp only [BTree.addrs, List.length_cons, List.length_append] at hf
    omega
  have wl : ∀ (t : ATree N Color) (q : List Bool) (p : Option Addr), PRep s.node p t → ∃ p', PRep s.node p' (t.walk q) := by
    intro t q
    induction q generalizing t with
    | nil => intro p h; cases t <;> exact ⟨p, h⟩
    | cons d q ih =>
      intro p h
      cases t with
      | nil => exact ⟨p, trivial⟩
      | node a y b =>
        cases d
        · exact ih a _ h.2.1
        · exact ih b _ h.2.2
  obtain ⟨p1, hs⟩ := wl r r.minPath _ h.2.2
  obtain ⟨p2, hp⟩ := wl l l.maxPath _ h.2.1
  have e1 : (if r.ptr.isSome then pMinNode fuel r.ptr else PM.pure none : PM N Color (Option Addr)) s =
      (.ok (r.walk r.minPath).ptr, s) := by
    cases hr : r with
    | nil => rfl
    | node c y d =>
      rw [hr] at h hlen
      exact pm_minNode h.2.2 (by simp) fuel hlen.2
  have e2 : (if l.ptr.isSome then pMaxNode fuel l.ptr else PM.pure none : PM N Color (Option Addr)) s =
      (.ok (l.walk l.maxPath).ptr, s) := by
    cases hl : l with
    | nil => rfl
    | node c y d =>
      rw [hl] at h hlen
      exact pm_maxNode h.2.1 (by simp) fuel hlen.1
  have hmin : (r.walk r.minPath = .nil ∧ r = .nil ∧ r.forget.minNode = none) ∨
      ∃ c y d, r.walk r.minPath = .node c y d ∧ r.forget.minNode = some (y.1, y.2.1) := by
    cases hr : r.walk r.minPath with
    | nil =>
      cases r with
      | nil => exact .inl ⟨rfl, rfl, rfl⟩
      | node c y d => exact absurd hr (minPath_walk _ (by simp))
    | node c y d =>
      refine .inr ⟨_, _, _, rfl, ?_⟩
      simp only [BTree.forget, mapExt_minNode, minNode_walk _ hr, Option.map_some]
  have hmax : (l.walk l.maxPath = .nil ∧ l = .nil ∧ l.forget.maxNode = none) ∨
      ∃ c y d, l.walk l.maxPath = .node c y d ∧ l.forget.maxNode = some (y.1, y.2.1) := by
    cases hr : l.walk l.maxPath with
    | nil =>
      cases l with
      | nil => exact .inl ⟨rfl, rfl, rfl⟩
      | node c y d => exact absurd hr (maxPath_walk _ (by simp))
    | node c y d =>
      refine .inr ⟨_, _, _, rfl, ?_⟩
      simp only [BTree.forget, mapExt_maxNode, maxNode_walk _ hr, Option.map_some]
  have hlf : (BTree.node l x r).isLeaf = true ∨ (l.ptr.isNone && r.ptr.isNone) = false := by
    cases l <;> cases r <;> simp [BTree.isLeaf, BTree.ptr]
  rw [pRbFindReplacement]
  refine (pm_bind_ok (pm_assert _ _)).trans <| (pm_bind_ok (pm_isLeaf h.1)).trans ?_
  rcases hlf with hlf | hlf
  · obtain ⟨rfl, rfl⟩ := isLeaf_iff.mp hlf
    rfl
  · have hl0 : ¬(l = .nil ∧ r = .nil) := by rintro ⟨rfl, rfl⟩; simp [BTree.ptr] at hlf
    simp only [hlf, Bool.false_eq_true, if_false]
    refine (pm_bind_ok (pm_right h.1)).trans <| (pm_bind_ok e1).trans <| (pm_bind_ok (pm_left h.1)).trans <|
      (pm_bind_ok e2).trans <| (pm_bind_ok (pm_isRed hs)).trans ?_
    rcases hmin with ⟨a1, a2, a3⟩ | ⟨c, y, d, a1, a3⟩
    · rcases hmax with ⟨b1, b2, b3⟩ | ⟨c', y', d', b1, b3⟩
      · exact absurd ⟨b2, a2⟩ hl0
      · rw [b1] at hp
        obtain ⟨k, cl, ad⟩ := y'
        have hcc : rbChoice l.forget r.forget = .predecessor := by
          simp only [rbChoice, a3, b3]
          cases cl <;> rfl
        rw [hcc, choicePtr, a1, b1]
        refine (pm_bind_ok (pm_isRed hp)).trans ?_
        cases cl <;> rfl
    · rw [a1] at hs
      obtain ⟨k, cl, ad⟩ := y
      cases cl with
      | red =>
        have hcc : rbChoice l.forget r.forget = .successor := by
          simp only [rbChoice, a3]
        rw [hcc, choicePtr, a1]
        rfl
      | black =>
        rw [a1]
        refine (pm_bind_ok (pm_isRed hp)).trans ?_
        rcases hmax with ⟨b1, b2, b3⟩ | ⟨c', y', d', b1, b3⟩
        · have hcc : rbChoice l.forget r.forget = .successor := by
            simp only [rbChoice, a3, b3]
          rw [hcc, choicePtr, a1, b1]
          rfl
        · obtain ⟨k', cl', ad'⟩ := y'
          cases cl' with
          | red =>
            have hcc : rbChoice l.forget r.forget = .predecessor := by
              simp only [rbChoice, a3, b3]
            rw [hcc, choicePtr, b1]
            rfl
          | black =>
            have hcc : rbChoice l.forget r.forget = .successor := by
              simp only [rbChoice, a3, b3]
            rw [hcc, choicePtr, a1, b1]
            rfl

end Extra
