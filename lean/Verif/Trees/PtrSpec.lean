import Verif.Trees.PtrBst

/-!
# What the properties of links say (specification), and that represented trees have it

`follow`, `WellLinked` and `Shows` read the node objects only; they do not use the value model.
-/

set_option linter.unusedSimpArgs false
set_option linter.unusedSectionVars false

namespace Extra
variable {N X : Type} [LinearOrder N]

/-- the node object reached by following child links: `false` is left, `true` is right -/
def follow (nd : Addr → Option (PNode N X)) : Option Addr → List Bool → Option Addr
  | p, [] => p
  | none, _ :: _ => none
  | some a, d :: q =>
    match nd a with
    | none => none
    | some n => follow nd (if d then n.right else n.left) q

/-- the node object reached from the root -/
def PTree.reach (s : PTree N X) (q : List Bool) : Option Addr := follow s.node s.root q

/-- Every node object reached from the root exists, has the node it is a child of as its parent (the root has
none), and is reached in one way only. -/
def WellLinked (s : PTree N X) : Prop :=
  ∀ q a, s.reach q = some a →
    (∃ n, s.node a = some n ∧ n.parent = if q = [] then none else s.reach q.dropLast) ∧
    ∀ q', s.reach q' = some a → q' = q

/-- the child links from a node spell out a tree -/
def Shows (nd : Addr → Option (PNode N X)) : Option Addr → BTree (N × X) → Prop
  | none, .nil => True
  | some a, .node l w r => ∃ n, nd a = some n ∧ n.data = w.1 ∧ n.ext = w.2 ∧ Shows nd n.left l ∧ Shows nd n.right r
  | _, _ => False

section
variable {nd : Addr → Option (PNode N X)} {t : ATree N X} {p : Option Addr}

theorem PRep.follow (h : PRep nd p t) (q : List Bool) : follow nd t.ptr q = (t.walk q).ptr := by
  induction t generalizing p q with
  | nil => rcases q with _ | ⟨_, q⟩ <;> rfl
  | node l w r ihl ihr =>
    rcases q with _ | ⟨_ | _, q⟩
    · rfl
    · simp only [BTree.ptr, Extra.follow, h.1, Bool.false_eq_true, if_false, BTree.walk]; exact ihl h.2.1 q
    · simp only [BTree.ptr, Extra.follow, h.1, if_true, BTree.walk]; exact ihr h.2.2 q

theorem PRep.parent (h : PRep nd p t) {q : List Bool} {l r : ATree N X} {w : N × (X × Addr)}
    (he : t.walk q = .node l w r) :
    ∃ n, nd w.2.2 = some n ∧ n.parent = if q = [] then p else (t.walk q.dropLast).ptr := by
  induction t generalizing p q with
  | nil => cases q <;> simp [BTree.walk] at he
  | node a u b iha ihb =>
    rcases q with _ | ⟨_ | _, q⟩
    · simp only [BTree.walk, BTree.node.injEq] at he
      obtain ⟨rfl, rfl, rfl⟩ := he
      exact ⟨_, h.1, by simp⟩
    · obtain ⟨n, h1, h2⟩ := iha h.2.1 he
      refine ⟨n, h1, ?_⟩
      rw [h2]
      rcases q with _ | ⟨d, q⟩
      · simp [BTree.walk, BTree.ptr]
      · simp [BTree.walk]
    · obtain ⟨n, h1, h2⟩ := ihb h.2.2 he
      refine ⟨n, h1, ?_⟩
      rw [h2]
      rcases q with _ | ⟨d, q⟩
      · simp [BTree.walk, BTree.ptr]
      · simp [BTree.walk]

theorem walk_ptr {t : ATree N X} {q : List Bool} {a : Addr} (h : (t.walk q).ptr = some a) :
    ∃ l w r, t.walk q = .node l w r ∧ w.2.2 = a := by
  cases he : t.walk q with
  | nil => rw [he] at h; simp [BTree.ptr] at h
  | node l w r => rw [he] at h; exact ⟨l, w, r, rfl, by simpa [BTree.ptr] using h⟩

theorem walk_unique {t : ATree N X} (hn : t.addrs.Nodup) {q q' : List Bool} {a : Addr}
    (h : (t.walk q).ptr = some a) (h' : (t.walk q').ptr = some a) : q' = q := by
  induction t generalizing q q' with
  | nil => cases q <;> simp [BTree.walk, BTree.ptr] at h
  | node l w r ihl ihr =>
    simp only [BTree.addrs, List.nodup_cons, List.nodup_append, List.mem_append, ne_eq] at hn
    have ml : ∀ q, (l.walk q).ptr = some a → a ∈ l.addrs := fun q hq => by
      obtain ⟨_, _, _, e, rfl⟩ := walk_ptr hq; exact walk_mem_addrs _ _ e
    have mr : ∀ q, (r.walk q).ptr = some a → a ∈ r.addrs := fun q hq => by
      obtain ⟨_, _, _, e, rfl⟩ := walk_ptr hq; exact walk_mem_addrs _ _ e
    rcases q with _ | ⟨_ | _, q⟩ <;> rcases q' with _ | ⟨_ | _, q'⟩ <;>
      simp only [BTree.walk, BTree.ptr, Option.some.injEq] at h h'
    · rfl
    · have := ml _ h'; grind
    · have := mr _ h'; grind
    · have := ml _ h; grind
    · rw [ihl (by grind) h h']
    · have := ml _ h; have := mr _ h'; grind
    · have := mr _ h; grind
    · have := mr _ h; have := ml _ h'; grind
    · rw [ihr (by grind) h h']

theorem PRep.shows (h : PRep nd p t) : Shows nd t.ptr t.forget := by
  induction t generalizing p with
  | nil => trivial
  | node l w r ihl ihr => exact ⟨_, h.1, rfl, rfl, ihl h.2.1, ihr h.2.2⟩

end

theorem ZRep.wellLinked {s : PTree N X} {t : ATree N X} (h : ZRep s t [] t.ptr) : WellLinked s := by
  have hr : s.root = t.ptr := h.ctx
  have hf : ∀ q, s.reach q = (t.walk q).ptr := fun q => by rw [PTree.reach, hr, h.rep.follow]
  intro q a hq
  rw [hf] at hq
  refine ⟨?_, fun q' hq' => ?_⟩
  · obtain ⟨l, w, r, e, rfl⟩ := walk_ptr hq
    obtain ⟨n, h1, h2⟩ := h.rep.parent e
    exact ⟨n, h1, by rw [h2, hf]; rfl⟩
  · rw [hf] at hq'
    exact walk_unique (List.nodup_append.mp h.nodup).1 hq hq'

theorem PtrHolds.wellLinked {s : PTree N X} {t : Bst N X} (h : PtrHolds s t) : WellLinked s := by
  obtain ⟨T, Z, -, -⟩ := h; exact Z.wellLinked

theorem PtrHolds.shows {s : PTree N X} {t : Bst N X} (h : PtrHolds s t) : Shows s.node s.root t.root := by
  obtain ⟨T, Z, h1, -⟩ := h
  rw [← h1, Z.root rfl]; exact Z.rep.shows

theorem PtrHolds.length {s : PTree N X} {t : Bst N X} (h : PtrHolds s t) : s.length = t.length := by
  obtain ⟨T, Z, -, h2⟩ := h; exact h2

end Extra
