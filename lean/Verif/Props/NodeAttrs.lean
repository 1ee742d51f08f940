import Verif.Trees.NodeAttrsProofs
import Batteries.Lean.Except

/-!
# The attributes of nodes: C99

Full statement: the height an `AVLNode` gives is the height of its subtree whatever `set_left` and `set_right`
were called, and `is_balanced()` says whether the heights of its sides differ by at most one; `set_height`,
`set_color` and `set_priority` store what they are given, change nothing else, and refuse what is not a height,
a color or a priority.
-/

set_option linter.unusedSectionVars false

namespace Extra
variable {N X P : Type} [LinearOrder N]

private theorem setLeft_fit {s : PTree N Nat} (A : LinksAgree s.node) (H : HeightsFit s.node) {a : Addr}
    {n : PNode N Nat} {c : Option Addr} (h : s.node a = some n) (hc : ∀ x, c = some x → ∃ m, s.node x = some m)
    (hca : c ≠ some a) : HeightsFit (nodeSetLeft avlClass a (c.elim .none .node) s).2.node ↔
      ∀ p m, n.parent = some p → s.node p = some m → m.ext =
        max (max (storedLevels s.node c) (storedLevels s.node n.right) + 1)
          (storedLevels s.node (otherChild a m)) := by
  have e : nodeSetLeft avlClass a (c.elim .none .node) s = pSetLeft avlClass (some a) c s := by cases c <;> rfl
  obtain ⟨A1, A2, _, _⟩ := A a n h
  rw [e, setLeft_eq _ h hc (fun x hx => (A2 x hx).imp fun _ k => k.1)]
  rw [fit_iff A H h (n' := ⟨n.data, max (storedLevels s.node c) (storedLevels s.node n.right), c, n.right, n.parent⟩)
    (by simp [afterLeft, avlClass, sideHeight_stored, hca]) ?_ hca (H.child_ne h).2]
  · simp
  · intro x hx
    simp only [put_node, afterLeft, if_neg hx]
    split
    · cases s.node x <;> rfl
    · rfl

private theorem setRight_fit {s : PTree N Nat} (A : LinksAgree s.node) (H : HeightsFit s.node) {a : Addr}
    {n : PNode N Nat} {c : Option Addr} (h : s.node a = some n) (hc : ∀ x, c = some x → ∃ m, s.node x = some m)
    (hca : c ≠ some a) : HeightsFit (nodeSetRight avlClass a (c.elim .none .node) s).2.node ↔
      ∀ p m, n.parent = some p → s.node p = some m → m.ext =
        max (max (storedLevels s.node n.left) (storedLevels s.node c) + 1)
          (storedLevels s.node (otherChild a m)) := by
  have e : nodeSetRight avlClass a (c.elim .none .node) s = pSetRight avlClass (some a) c s := by
    cases c <;> rfl
  obtain ⟨A1, A2, _, _⟩ := A a n h
  rw [e, setRight_eq _ h hc (fun x hx => (A1 x hx).imp fun _ k => k.1)]
  rw [fit_iff A H h (n' := ⟨n.data, max (storedLevels s.node n.left) (storedLevels s.node c), n.left, c, n.parent⟩)
    (by simp [afterRight, avlClass, sideHeight_stored, hca]) ?_ (H.child_ne h).1 hca]
  · simp
  · intro x hx
    simp only [put_node, afterRight, if_neg hx]
    split
    · cases s.node x <;> rfl
    · rfl

/-- C99: where all stored heights fit, `get_height()` gives the height of the subtree: the number of levels
below the node -/
theorem C99_get_height (s : PTree N Nat) (H : HeightsFit s.node) (a : Addr) (h : Nat)
    (hp : Levels s.node (some a) (h + 1)) : nodeGetExt a s = (.ok h, s) := by
  have e := stored_levels H hp
  cases hp with
  | node k _ _ =>
    simp only [storedLevels, Option.bind_some, k, Option.map_some, Option.getD_some, Nat.add_right_cancel_iff] at e
    rw [nodeGetExt, pm_bind_ok (pm_node k), e]
    rfl

/-- C99: and `get_children_heights()` gives the heights of the two sides, `is_balanced()` whether they differ
by at most one -/
theorem C99_balanced (s : PTree N Nat) (H : HeightsFit s.node) (a : Addr) (n : PNode N Nat)
    (h : s.node a = some n) (l r : Nat) (hl : Levels s.node n.left l) (hr : Levels s.node n.right r) :
    pHeights (some a) s = (.ok (l, r), s) ∧
      pBalanced (some a) s = (.ok (decide (((l : Int) - r).natAbs ≤ 1)), s) := by
  have there : ∀ {p : Option Addr} {k : Nat}, Levels s.node p k → ∀ c, p = some c → ∃ m, s.node c = some m := by
    intro p k hp c hc
    subst hc
    cases hp with
    | node k _ _ => exact ⟨_, k⟩
  have e : pHeights (some a) s = (.ok (l, r), s) := by
    rw [pHeights, pm_bind_ok (pm_node h), pm_bind_ok (pm_extAt (there hl)), pm_bind_ok (pm_extAt (there hr)),
      sideHeight_stored, sideHeight_stored, stored_levels H hl, stored_levels H hr]
    rfl
  refine ⟨e, ?_⟩
  rw [pBalanced, pm_bind_ok e]
  have : (l ≤ r + 1 ∧ r ≤ l + 1) ↔ ((l : Int) - r).natAbs ≤ 1 := by omega
  simp only [this]
  rfl

/-- C99, exactly: after `set_left` or `set_right` of a node (not with the node itself) all heights fit if and
only if the height of the node's parent, if it has one, is still right: the setters do not look at it. -/
theorem C99_heights_exact (s : PTree N Nat) (A : LinksAgree s.node) (H : HeightsFit s.node) (a : Addr)
    (n : PNode N Nat) (c : Option Addr) (h : s.node a = some n)
    (hc : ∀ x, c = some x → ∃ m, s.node x = some m) (hca : c ≠ some a) :
    (HeightsFit (nodeSetLeft avlClass a (c.elim .none .node) s).2.node ↔
      ∀ p m, n.parent = some p → s.node p = some m → m.ext =
        max (max (storedLevels s.node c) (storedLevels s.node n.right) + 1)
          (storedLevels s.node (otherChild a m))) ∧
    (HeightsFit (nodeSetRight avlClass a (c.elim .none .node) s).2.node ↔
      ∀ p m, n.parent = some p → s.node p = some m → m.ext =
        max (max (storedLevels s.node n.left) (storedLevels s.node c) + 1)
          (storedLevels s.node (otherChild a m))) :=
  ⟨setLeft_fit A H h hc hca, setRight_fit A H h hc hca⟩

/-- C99, for trees that are built from below: linking a node that has no parent keeps all heights right -/
theorem C99_heights_partial (s : PTree N Nat) (A : LinksAgree s.node) (H : HeightsFit s.node) (a : Addr)
    (n : PNode N Nat) (c : Option Addr) (h : s.node a = some n) (hp : n.parent = none)
    (hc : ∀ x, c = some x → ∃ m, s.node x = some m) (hca : c ≠ some a) :
    HeightsFit (nodeSetLeft avlClass a (c.elim .none .node) s).2.node ∧
    HeightsFit (nodeSetRight avlClass a (c.elim .none .node) s).2.node := by
  obtain ⟨h1, h2⟩ := C99_heights_exact s A H a n c h hc hca
  exact ⟨h1.2 (by simp [hp]), h2.2 (by simp [hp])⟩

/-- C99: for a node that has a parent and no child on that side: the heights stay right exactly when the new
height of the node is below that of its parent -/
theorem C99_below_exact (s : PTree N Nat) (A : LinksAgree s.node) (H : HeightsFit s.node) (a p : Addr)
    (n m : PNode N Nat) (c : Option Addr) (h : s.node a = some n) (hp : n.parent = some p)
    (hm : s.node p = some m) (hn : n.left = none) (hc : ∀ x, c = some x → ∃ m, s.node x = some m)
    (hca : c ≠ some a) :
    HeightsFit (nodeSetLeft avlClass a (c.elim .none .node) s).2.node ↔
      max (storedLevels s.node c) (storedLevels s.node n.right) < m.ext := by
  rw [(C99_heights_exact s A H a n c h hc hca).1]
  have e := H a n h
  rw [hn] at e
  have z : storedLevels s.node none = 0 := rfl
  rw [z] at e
  have e' := H p m hm
  obtain ⟨m₂, hm₂, k⟩ := (A a n h).2.2.1 p hp
  rw [hm] at hm₂
  cases hm₂
  have sa : storedLevels s.node (some a) = n.ext + 1 := by simp [storedLevels, h]
  have e'' : m.ext = max (n.ext + 1) (storedLevels s.node (otherChild a m)) := by
    rw [otherChild]
    split
    · next hl => rw [e', hl, sa]
    · next hl => rw [e', k.resolve_left hl, sa, max_comm]
  constructor
  · intro q
    have := q p m hp hm
    omega
  · intro q p' m' hp' hm'
    rw [hp] at hp'
    cases hp'
    rw [hm] at hm'
    cases hm'
    omega

/-- C99: `set_height` -/
theorem C99_set_height (s : PTree N Nat) (a : Addr) (n : PNode N Nat) (h : s.node a = some n) :
    (∀ k : Nat, nodeSetHeight a (.int k) s = (.ok (), s.put (upd s.node a (some { n with ext := k })))) ∧
    (∀ i : Int, i < 0 → nodeSetHeight a (.int i) s = (.error .valueError, s)) ∧
    nodeSetHeight a .other s = (.error .typeError, s) := by
  refine ⟨fun k => ?_, fun i hi => ?_, rfl⟩
  · rw [nodeSetHeight, if_neg (by omega), pm_setNode _ h]
    rfl
  · rw [nodeSetHeight, if_pos hi]
    rfl

/-- C99: which `set_height` keeps the heights right: the one that changes nothing -/
theorem C99_set_height_fit (s : PTree N Nat) (A : LinksAgree s.node) (H : HeightsFit s.node) (a : Addr)
    (n : PNode N Nat) (h : s.node a = some n) (k : Nat) :
    HeightsFit (nodeSetHeight a (.int k) s).2.node ↔ k = n.ext := by
  rw [(C99_set_height s a n h).1 k]
  constructor
  · intro F
    have := (fit_iff A H h (nd' := upd s.node a (some { n with ext := k })) (upd_eq _ _ _)
      (fun x hx => by rw [upd_other _ _ hx]) (H.child_ne h).1 (H.child_ne h).2).1 F
    rw [H a n h]
    exact this.1
  · rintro rfl
    have : upd s.node a (some n) = s.node := by
      funext x
      by_cases hx : x = a
      · subst hx; simp [h]
      · rw [upd_other _ _ hx]
    change HeightsFit (upd s.node a (some n))
    rw [this]
    exact H

/-- C99: `set_color` -/
theorem C99_set_color (s : PTree N Color) (a : Addr) (n : PNode N Color) (h : s.node a = some n) :
    (∀ c, nodeSetColor a (.color c) s = (.ok (), s.put (upd s.node a (some { n with ext := c })))) ∧
    nodeSetColor a .other s = (.error .valueError, s) ∧ nodeSetColor a .unhashable s = (.error .typeError, s) :=
  ⟨fun c => pm_setNode (fun n => { n with ext := c }) h, rfl, rfl⟩

/-- C99: `set_priority` -/
theorem C99_set_priority (s : PTree N P) (a : Addr) (n : PNode N P) (h : s.node a = some n) :
    (∀ p, treapNodeSetPriority a (.num p) s = (.ok (), s.put (upd s.node a (some { n with ext := p })))) ∧
    treapNodeSetPriority a .other s = (.error .typeError, s) :=
  ⟨fun p => pm_setNode (fun n => { n with ext := p }) h, rfl⟩

/-! ## Examples, and where the full statement fails -/

/-- node objects without links -/
def singleNodes (k : Nat) : PTree Nat Nat :=
  ⟨fun x => if x < k then some ⟨x, 0, none, none, none⟩ else none, k, none, 0, false⟩

theorem singleNodes_fit (k : Nat) : LinksAgree (singleNodes k).node ∧ HeightsFit (singleNodes k).node := by
  constructor
  · intro a n h
    simp only [singleNodes] at h
    split at h
    · cases h; simp
    · cases h
  · intro a n h
    simp only [singleNodes] at h
    split at h
    · cases h; simp [storedLevels]
    · cases h

/-- one after the other -/
def linkAll : List (Bool × Addr × Addr) → PTree Nat Nat → PTree Nat Nat
  | [], s => s
  | (true, a, c) :: l, s => linkAll l (nodeSetLeft avlClass a (.node c) s).2
  | (false, a, c) :: l, s => linkAll l (nodeSetRight avlClass a (.node c) s).2

-- built from below: 1 under 2, then 2 under 3
example : ((nodeGetExt 3 (linkAll [(true, 2, 1), (false, 3, 2)] (singleNodes 4))).1 = .ok 2) := by
  decide +kernel
example : HeightsFit (nodeSetLeft avlClass 2 (.node 1) (singleNodes 4)).2.node :=
  (C99_heights_partial (singleNodes 4) (singleNodes_fit 4).1 (singleNodes_fit 4).2 2 ⟨2, 0, none, none, none⟩
    (some 1) rfl rfl (fun x hx => by cases hx; exact ⟨_, rfl⟩) (by decide)).1

/-- C99, the negation: three nodes one below the other, linked from above: the height of the top node is
given as 1; and five nodes, linked from above, whose left side has three levels and right side one:
`is_balanced()` says yes. -/
theorem C99_heights_wrong :
    (∀ s, s = linkAll [(true, 3, 2), (true, 2, 1)] (singleNodes 4) →
      Levels s.node (some 3) 3 ∧ (nodeGetExt 3 s).1 = .ok 1) ∧
    (∀ s, s = linkAll [(true, 4, 2), (false, 4, 0), (true, 2, 1), (true, 1, 3)] (singleNodes 5) →
      (∃ n, s.node 4 = some n ∧ Levels s.node n.left 3 ∧ Levels s.node n.right 1) ∧
        (pBalanced (some 4) s).1 = .ok true) := by
  constructor
  · rintro s rfl
    refine ⟨?_, by decide +kernel⟩
    exact .node (l := 2) (r := 0) (n := ⟨3, 1, some 2, none, none⟩) (by decide +kernel)
      (.node (l := 1) (r := 0) (n := ⟨2, 1, some 1, none, some 3⟩) (by decide +kernel)
        (.node (l := 0) (r := 0) (n := ⟨1, 0, none, none, some 2⟩) (by decide +kernel) .none .none) .none) .none
  · rintro s rfl
    refine ⟨⟨⟨4, 1, some 2, some 0, none⟩, by decide +kernel, ?_, ?_⟩, by decide +kernel⟩
    · exact .node (l := 2) (r := 0) (n := ⟨2, 1, some 1, none, some 4⟩) (by decide +kernel)
        (.node (l := 1) (r := 0) (n := ⟨1, 1, some 3, none, some 2⟩) (by decide +kernel)
          (.node (l := 0) (r := 0) (n := ⟨3, 0, none, none, some 1⟩) (by decide +kernel) .none .none) .none) .none
    · exact .node (l := 0) (r := 0) (n := ⟨0, 0, none, none, some 4⟩) (by decide +kernel) .none .none

example : (nodeSetHeight 0 (.int (-1)) (singleNodes 1)).1 = .error .valueError ∧
    ((nodeSetHeight 0 (.int 7) (singleNodes 1)).2.node 0).map (·.ext) = some 7 := by decide +kernel

end Extra
