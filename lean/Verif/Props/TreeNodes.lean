import Verif.Trees.TreeNodesProofs
import Batteries.Lean.Except

/-!
# C119: trees of `TreeNode` objects

Full statement: whatever `set_child` and `set_children` were called, `len`, `get_height`, `count_leaf_nodes` and
iteration tell about the nodes that can be reached from the root, each node counted once, and they end.  It is false:
`set_child` takes any node, so a node can be the child of two nodes and is then counted twice (`C119_shared`), and a node
can be below itself, and then the counts raise `RecursionError` and iteration never ends (`C119_loop`).  Exactly what they
count are the ways down from the root, given by the positions of the children to go to.
-/

namespace Extra
variable {V : Type}

/-- With room for `room` nested calls, `len`, `get_height` and `count_leaf_nodes` return if and only if every way down
has fewer steps than that; otherwise they raise `RecursionError`. -/
theorem C119_room (σ : TreeStore V) (room : Nat) (a : Addr) :
    ((tnCount σ room a).isSome = true ↔ ∀ p, WayDown σ a p → p.length < room) ∧
    ((tnHeight σ room a).isSome = true ↔ ∀ p, WayDown σ a p → p.length < room) ∧
    ((tnLeaves σ room a).isSome = true ↔ ∀ p, WayDown σ a p → p.length < room) :=
  ⟨tnCount_isSome σ room a, tnHeight_isSome σ room a, tnLeaves_isSome σ room a⟩

/-- If they return, `len` is the number of ways down, `count_leaf_nodes` that of the ways to a node without children,
and `get_height` the number of steps of the longest. -/
theorem C119_counts (σ : TreeStore V) (room : Nat) (a : Addr) :
    (∀ n, tnCount σ room a = some n → ∃ L : List (List Nat), L.Nodup ∧ (∀ p, p ∈ L ↔ WayDown σ a p) ∧ n = L.length) ∧
    (∀ n, tnLeaves σ room a = some n → ∃ L : List (List Nat), L.Nodup ∧
      (∀ p, p ∈ L ↔ ∃ b, goDown σ a p = some b ∧ (σ b).2 = []) ∧ n = L.length) ∧
    (∀ n, tnHeight σ room a = some n → (∀ p, WayDown σ a p → p.length ≤ n) ∧ ∃ p, WayDown σ a p ∧ p.length = n) := by
  refine ⟨fun n h => ?_, fun n h => ?_, fun n h => tnHeight_eq σ room a n h⟩
  · have hs := (tnCount_isSome σ room a).1 (by rw [h]; rfl)
    refine ⟨_, nodup_waysIn σ room a, fun p => ?_, tnCount_eq σ room a n h⟩
    rw [mem_waysIn]
    exact ⟨fun hp => hp.1, fun hp => ⟨hp, hs p hp⟩⟩
  · have hs := (tnLeaves_isSome σ room a).1 (by rw [h]; rfl)
    refine ⟨_, nodup_leafWays σ room a, fun p => ?_, tnLeaves_eq σ room a n h⟩
    rw [mem_leafWays]
    refine ⟨fun hp => hp.1, fun hp => ⟨hp, hs p ?_⟩⟩
    obtain ⟨b, hb, _⟩ := hp
    rw [WayDown, hb]; rfl

/-- `len` is at least the number of nodes that can be reached, and equal to it if and only if no two ways lead to the
same node. -/
theorem C119_distinct_partial (σ : TreeStore V) (room : Nat) (a : Addr) (n : Nat) (h : tnCount σ room a = some n)
    (D : List Addr) (hD : D.Nodup) (hmem : ∀ b, b ∈ D ↔ ∃ p, goDown σ a p = some b) :
    D.length ≤ n ∧ (D.length = n ↔ ∀ p q b, goDown σ a p = some b → goDown σ a q = some b → p = q) := by
  obtain ⟨L, hL, hm, rfl⟩ := (C119_counts σ room a).1 n h
  have hsub : D.map some ⊆ L.map (goDown σ a) := by
    intro o ho
    obtain ⟨b, hb, rfl⟩ := List.mem_map.1 ho
    obtain ⟨p, hp⟩ := (hmem b).1 hb
    exact List.mem_map.2 ⟨p, (hm p).2 (by rw [WayDown, hp]; rfl), hp⟩
  have hsup : L.map (goDown σ a) ⊆ D.map some := by
    intro o ho
    obtain ⟨p, hp, rfl⟩ := List.mem_map.1 ho
    obtain ⟨b, hb⟩ := Option.isSome_iff_exists.1 ((hm p).1 hp)
    exact List.mem_map.2 ⟨b, (hmem b).2 ⟨p, hb⟩, hb.symm⟩
  have hDn : (D.map some).Nodup := hD.map fun _ _ e => Option.some.inj e
  have hle := (List.subperm_of_subset hDn hsub).length_le
  rw [List.length_map, List.length_map] at hle
  refine ⟨hle, ?_, ?_⟩
  · intro he
    have hperm : (D.map some).Perm (L.map (goDown σ a)) :=
      (List.subperm_of_subset hDn hsub).perm_of_length_le (by simp [he])
    have hnd := hperm.nodup_iff.1 hDn
    rw [List.nodup_map_iff_inj_on hL] at hnd
    intro p q b hp hq
    exact hnd p ((hm p).2 (by rw [WayDown, hp]; rfl)) q ((hm q).2 (by rw [WayDown, hq]; rfl)) (hp.trans hq.symm)
  · intro hinj
    have hnd : (L.map (goDown σ a)).Nodup := by
      rw [List.nodup_map_iff_inj_on hL]
      intro p hp q hq e
      obtain ⟨b, hb⟩ := Option.isSome_iff_exists.1 ((hm p).1 hp)
      exact hinj p q b hb (e ▸ hb)
    have := (List.subperm_of_subset hnd hsup).length_le
    rw [List.length_map, List.length_map] at this
    omega

/-- Iterating: in the first `k` turns of its loop it yields the data of the nodes at the ends of the ways of fewer than
`k` steps, one for each way, shorter ways first; it has ended if and only if there are no other ways. -/
theorem C119_iter (σ : TreeStore V) (k : Nat) (a : Addr) : ∃ M : List (List Nat), M.Nodup ∧
    (∀ p, p ∈ M ↔ WayDown σ a p ∧ p.length < k) ∧ M.Pairwise (fun p q => p.length ≤ q.length) ∧
    M.map (fun p => (goDown σ a p).map fun b => (σ b).1) = (tnIter σ k [a]).1.map some ∧
    ((tnIter σ k [a]).2 = [] ↔ ∀ p, WayDown σ a p → p.length < k) := by
  obtain ⟨M, h1, h2, h3, h4, h5⟩ := tnIter_spec k 0 [[]] [a] (levelOf_zero σ a)
  exact ⟨M, h1, fun p => by simpa using h2 p, h3, h4, by simpa using h5⟩

/-- If a node that can be reached is below itself, `len`, `get_height` and `count_leaf_nodes` raise `RecursionError`
however many nested calls there may be, and iteration does not end. -/
theorem C119_loop (σ : TreeStore V) (a b : Addr) (p q : List Nat) (hp : goDown σ a p = some b)
    (hq : goDown σ b q = some b) (hne : q ≠ []) (room : Nat) :
    tnCount σ room a = none ∧ tnHeight σ room a = none ∧ tnLeaves σ room a = none ∧ (tnIter σ room [a]).2 ≠ [] := by
  obtain ⟨w, hw, hl⟩ := long_way hp hq hne room
  have no : ¬ ∀ p, WayDown σ a p → p.length < room := fun h => absurd (h w hw) (by omega)
  obtain ⟨h1, h2, h3⟩ := C119_room σ room a
  obtain ⟨_, _, _, _, _, h5⟩ := C119_iter σ room a
  refine ⟨?_, ?_, ?_, fun h => no (h5.1 h)⟩
  · cases e : tnCount σ room a with
    | none => rfl
    | some n => exact absurd (h1.1 (by rw [e]; rfl)) no
  · cases e : tnHeight σ room a with
    | none => rfl
    | some n => exact absurd (h2.1 (by rw [e]; rfl)) no
  · cases e : tnLeaves σ room a with
    | none => rfl
    | some n => exact absurd (h3.1 (by rw [e]; rfl)) no

/-- Otherwise they return, and iteration ends, with as much room as there are nodes that can be reached. -/
theorem C119_ends_partial (σ : TreeStore V) (a : Addr) (D : List Addr) (hD : ∀ p b, goDown σ a p = some b → b ∈ D)
    (hl : ∀ b p q, goDown σ a p = some b → goDown σ b q = some b → q = []) :
    (tnCount σ D.length a).isSome = true ∧ (tnHeight σ D.length a).isSome = true ∧
    (tnLeaves σ D.length a).isSome = true ∧ (tnIter σ D.length [a]).2 = [] := by
  have hs : ∀ p, WayDown σ a p → p.length < D.length := fun p hp => way_short hD hl p hp
  obtain ⟨_, _, _, _, _, h5⟩ := C119_iter σ D.length a
  exact ⟨(C119_room σ _ a).1.2 hs, (C119_room σ _ a).2.1.2 hs, (C119_room σ _ a).2.2.2 hs, h5.2 hs⟩

/-- `a.set_child(c)` makes no loop, if there was none, if and only if `a` is not below `c` and not `c` itself. -/
theorem C119_set_child (σ : TreeStore V) (h : NoLoop σ) (a c : Addr) :
    (tnSetChild σ a (.node c)).1 = .ok () ∧
    (NoLoop (tnSetChild σ a (.node c)).2 ↔ ∀ q, goDown σ c q ≠ some a) ∧
    tnSetChild σ a .other = (.error .typeError, σ) :=
  ⟨rfl, noLoop_withChild h a c, rfl⟩

/-- Building a tree from separate parts: if there is one way at most from the root to each node and from `c` to each
node, nothing is reached from both, and `a` is not below `c`, then after `a.set_child(c)` there is still one way at most
from the root to each node. -/
theorem C119_build_partial (σ : TreeStore V) (r a c : Addr)
    (hr : ∀ p q b, goDown σ r p = some b → goDown σ r q = some b → p = q)
    (hc : ∀ p q b, goDown σ c p = some b → goDown σ c q = some b → p = q)
    (hsep : ∀ p q b, goDown σ r p = some b → goDown σ c q ≠ some b) (hno : ∀ q, goDown σ c q ≠ some a) :
    ∀ p q b, goDown (tnSetChild σ a (.node c)).2 r p = some b → goDown (tnSetChild σ a (.node c)).2 r q = some b →
      p = q := by
  intro p q b hp hq
  rcases goDown_withChild_cases hno p r b hp with h1 | ⟨p1, p2, rfl, h1, h1'⟩
  · rcases goDown_withChild_cases hno q r b hq with h2 | ⟨q1, q2, rfl, h2, h2'⟩
    · exact hr p q b h1 h2
    · exact absurd h2' (hsep p q2 b h1)
  · rcases goDown_withChild_cases hno q r b hq with h2 | ⟨q1, q2, rfl, h2, h2'⟩
    · exact absurd h1' (hsep q p2 b h2)
    · rw [hr p1 q1 a h1 h2, hc p2 q2 b h1' h2']

/-- `set_children` gives the node the children listed, or raises `TypeError` and changes nothing if one of them is not a
`TreeNode`; `swap` exchanges the data of two nodes and leaves all children where they are. -/
theorem C119_setters (σ : TreeStore V) (a b : Addr) :
    (∀ cs : List Addr, tnSetChildren σ a (some (cs.map .node)) = (.ok (), upd σ a ((σ a).1, cs))) ∧
    (∀ lst : List TreeNodeArg, TreeNodeArg.other ∈ lst → tnSetChildren σ a (some lst) = (.error .typeError, σ)) ∧
    tnSetChildren σ a none = (.error .typeError, σ) ∧
    (tnSwap σ (.node a) (.node b)).1 = .ok () ∧
    (∀ x, ((tnSwap σ (.node a) (.node b)).2 x).2 = (σ x).2) ∧
    ((tnSwap σ (.node a) (.node b)).2 a).1 = (σ b).1 ∧ ((tnSwap σ (.node a) (.node b)).2 b).1 = (σ a).1 ∧
    ∀ x, x ≠ a → x ≠ b → ((tnSwap σ (.node a) (.node b)).2 x).1 = (σ x).1 := by
  have h1 : ∀ (cs out : List Addr), tnChildren (cs.map .node) out = .ok (out ++ cs) := by
    intro cs
    induction cs with
    | nil => intro out; simp [tnChildren]
    | cons c cs ih => intro out; simp [tnChildren, ih]
  have h2 : ∀ (lst : List TreeNodeArg) (out : List Addr), TreeNodeArg.other ∈ lst → tnChildren lst out = .error .typeError := by
    intro lst
    induction lst with
    | nil => intro out h; cases h
    | cons c cs ih =>
      intro out h
      cases c with
      | other => rfl
      | node c => exact ih _ (by simpa using h)
  refine ⟨fun cs => by simp [tnSetChildren, h1], fun lst h => by simp [tnSetChildren, h2 lst [] h], rfl, rfl, ?_, ?_, ?_, ?_⟩
  · intro x
    simp only [tnSwap, upd]
    split
    · rename_i e; rw [e]
    · split
      · rename_i e; rw [e]
      · rfl
  · simp only [tnSwap, upd]
    split
    · rename_i e; rw [e]
    · simp
  · simp [tnSwap, upd]
  · intro x ha hb
    simp [tnSwap, upd, ha, hb]

/-! ## Examples -/

/-- nodes without children whose data is the number of the object -/
def bareNodes : TreeStore Nat := fun x => (x, [])

/-- the nodes after calls of `set_child` -/
def linked : List (Addr × Addr) → TreeStore Nat → TreeStore Nat
  | [], σ => σ
  | (a, c) :: l, σ => linked l (tnSetChild σ a (.node c)).2

example : tnCount (linked [(0, 1), (0, 2), (1, 3)] bareNodes) 3 0 = some 4 ∧
    tnCount (linked [(0, 1), (0, 2), (1, 3)] bareNodes) 2 0 = none ∧
    tnHeight (linked [(0, 1), (0, 2), (1, 3)] bareNodes) 3 0 = some 2 ∧
    tnLeaves (linked [(0, 1), (0, 2), (1, 3)] bareNodes) 3 0 = some 2 ∧
    tnIter (linked [(0, 1), (0, 2), (1, 3)] bareNodes) 3 [0] = ([0, 1, 2, 3], []) ∧
    goDown (linked [(0, 1), (0, 2), (1, 3)] bareNodes) 0 [0, 0] = some 3 := by decide +kernel

example : NoLoop bareNodes := by
  intro b q h
  cases q with
  | nil => rfl
  | cons i q => simp [goDown, bareNodes] at h

/-- The negation: a node that is a child of the root and of a child of the root is counted twice and yielded twice;
`d = TreeNode(3); r.set_child(c); r.set_child(d); c.set_child(d)`. -/
theorem C119_shared : tnCount (linked [(0, 1), (0, 2), (1, 2)] bareNodes) 9 0 = some 4 ∧
    tnLeaves (linked [(0, 1), (0, 2), (1, 2)] bareNodes) 9 0 = some 2 ∧
    tnIter (linked [(0, 1), (0, 2), (1, 2)] bareNodes) 9 [0] = ([0, 1, 2, 2], []) ∧
    (∀ b, (∃ p, goDown (linked [(0, 1), (0, 2), (1, 2)] bareNodes) 0 p = some b) → b ∈ [0, 1, 2]) := by
  refine ⟨by decide +kernel, by decide +kernel, by decide +kernel, ?_⟩
  rintro b ⟨p, hp⟩
  have key : ∀ (p : List Nat) (a : Addr), a ∈ [0, 1, 2] →
      goDown (linked [(0, 1), (0, 2), (1, 2)] bareNodes) a p = some b → b ∈ [0, 1, 2] := by
    intro p
    induction p with
    | nil => intro a ha h; cases h; exact ha
    | cons i p ih =>
      intro a ha h
      obtain ⟨c, hc, h⟩ := goDown_cons_some.1 h
      refine ih c ?_ h
      have hm := List.mem_of_getElem? hc
      have : ∀ x ∈ [0, 1, 2], ∀ y ∈ (linked [(0, 1), (0, 2), (1, 2)] bareNodes x).2, y ∈ [0, 1, 2] := by decide +kernel
      exact this a ha c hm
  exact key p 0 (by decide) hp

/-- and `r.set_child(c); c.set_child(r)` makes a loop, to which `C119_loop` applies -/
theorem C119_own_parent : goDown (linked [(0, 1), (1, 0)] bareNodes) 0 [] = some 0 ∧
    goDown (linked [(0, 1), (1, 0)] bareNodes) 0 [0, 0] = some 0 ∧
    ∀ room, tnCount (linked [(0, 1), (1, 0)] bareNodes) room 0 = none :=
  ⟨rfl, by decide +kernel, fun room => (C119_loop _ 0 0 [] [0, 0] rfl (by decide +kernel) (by simp) room).1⟩

end Extra
