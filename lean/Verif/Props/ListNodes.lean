import Verif.Lists.NodeCalls
import Verif.Lists.QueueSpec
import Batteries.Lean.Except

/-!
# The setters of the nodes of lists: C96

`LinkPairs` says that the links of doubly linked nodes come in pairs: a node is the next one of another
exactly if the other is its previous one.
-/

set_option linter.unusedSectionVars false

namespace Extra
variable {V X P : Type} [PyData V]

/-- `b` is behind `a` exactly if `a` is before `b` -/
def LinkPairs (h : Heap V X) : Prop :=
  ∀ a b, (h.node a).next = some b ↔ (h.node b).prev = some a

/-! ## C96

Full statement: `a.set_next(c)` makes `c` the next node (and, for a `DoublyNode`, `a` the previous one of
`c`), changes nothing else, keeps the links of doubly linked nodes in pairs, and refuses what is not a
node; so does `set_prev`.  The pairs are kept exactly when `c` is the next node already, or `a` has no
next node and `c` no previous one; otherwise the old next node keeps `a` as its previous one, or the old
previous one of `c` keeps `c` as its next node. -/

/-- C96: what `a.set_next(c)` does for a `Node` -/
theorem C96_set_next (k : Kind) (hk : k ≠ .dll) (h : Heap V X) (a : Addr) (c : Option Addr) :
    ∃ h', nodeSetNext k a (c.elim .none .node) h = (.ok (), h') ∧
      h'.node a = { h.node a with next := c } ∧ (∀ x, x ≠ a → h'.node x = h.node x) ∧
      h'.lobj = h.lobj ∧ h'.nNodes = h.nNodes ∧ h'.nLists = h.nLists := by
  have e : nodeSetNext k a (c.elim .none .node) h = (.ok (), h.setNode a { h.node a with next := c }) := by
    cases k
    · cases c <;> rfl
    · exact absurd rfl hk
    · cases c <;> rfl
  refine ⟨_, e, ?_, ?_, rfl, rfl, rfl⟩
  · simp [Heap.setNode, upd]
  · intro x hx; simp [Heap.setNode, upd, hx]

/-- C96: what `a.set_next(c)` does for a `DoublyNode` -/
theorem C96_set_next_doubly (h : Heap V X) (a : Addr) (c : Option Addr) :
    ∃ h', nodeSetNext .dll a (c.elim .none .node) h = (.ok (), h') ∧
      (h'.node a).next = c ∧ (c ≠ some a → (h'.node a).prev = (h.node a).prev) ∧
      (∀ x, c = some x → (h'.node x).prev = some a ∧ (x ≠ a → (h'.node x).next = (h.node x).next)) ∧
      (∀ x, (h'.node x).data = (h.node x).data ∧ (h'.node x).ext = (h.node x).ext) ∧
      (∀ x, x ≠ a → c ≠ some x → h'.node x = h.node x) ∧
      h'.lobj = h.lobj ∧ h'.nNodes = h.nNodes ∧ h'.nLists = h.nLists := by
  cases c with
  | none =>
    refine ⟨_, rfl, ?_, ?_, ?_, ?_, ?_, rfl, rfl, rfl⟩
    · simp [Heap.setNode, upd]
    · simp [Heap.setNode, upd]
    · simp
    · intro x; simp only [Heap.setNode, upd]; split <;> simp_all
    · intro x hx _; simp [Heap.setNode, upd, hx]
  | some b =>
    refine ⟨_, rfl, ?_, ?_, ?_, ?_, ?_, rfl, rfl, rfl⟩
    · by_cases hb : a = b <;> simp [Heap.setNode, upd, hb]
    · intro hb
      have : a ≠ b := fun k => hb (by rw [k])
      simp [Heap.setNode, upd, this]
    · intro x hx
      cases hx
      refine ⟨by simp [Heap.setNode, upd], fun hx => by simp [Heap.setNode, upd, hx]⟩
    · intro x; simp only [Heap.setNode, upd]; split <;> split <;> simp_all
    · intro x hx hb
      have : x ≠ b := fun k => hb (by rw [k])
      simp [Heap.setNode, upd, hx, this]

/-- C96: what `a.set_prev(c)` does -/
theorem C96_set_prev (h : Heap V X) (a : Addr) (c : Option Addr) :
    ∃ h', nodeSetPrev a (c.elim .none .node) h = (.ok (), h') ∧
      (h'.node a).prev = c ∧ (c ≠ some a → (h'.node a).next = (h.node a).next) ∧
      (∀ x, c = some x → (h'.node x).next = some a ∧ (x ≠ a → (h'.node x).prev = (h.node x).prev)) ∧
      (∀ x, (h'.node x).data = (h.node x).data ∧ (h'.node x).ext = (h.node x).ext) ∧
      (∀ x, x ≠ a → c ≠ some x → h'.node x = h.node x) ∧
      h'.lobj = h.lobj ∧ h'.nNodes = h.nNodes ∧ h'.nLists = h.nLists := by
  cases c with
  | none =>
    refine ⟨_, rfl, ?_, ?_, ?_, ?_, ?_, rfl, rfl, rfl⟩
    · simp [Heap.setNode, upd]
    · simp [Heap.setNode, upd]
    · simp
    · intro x; simp only [Heap.setNode, upd]; split <;> simp_all
    · intro x hx _; simp [Heap.setNode, upd, hx]
  | some b =>
    refine ⟨_, rfl, ?_, ?_, ?_, ?_, ?_, rfl, rfl, rfl⟩
    · by_cases hb : a = b <;> simp [Heap.setNode, upd, hb]
    · intro hb
      have : a ≠ b := fun k => hb (by rw [k])
      simp [Heap.setNode, upd, this]
    · intro x hx
      cases hx
      refine ⟨by simp [Heap.setNode, upd], fun hx => by simp [Heap.setNode, upd, hx]⟩
    · intro x; simp only [Heap.setNode, upd]; split <;> split <;> simp_all
    · intro x hx hb
      have : x ≠ b := fun k => hb (by rw [k])
      simp [Heap.setNode, upd, hx, this]

/-- C96: exactly when `a.set_next(c)` and `a.set_prev(c)` keep the links in pairs -/
theorem C96_pairs_partial (h : Heap V X) (H : LinkPairs h) (a : Addr) (c : Option Addr) :
    (LinkPairs (nodeSetNext .dll a (c.elim .none .node) h).2 ↔ (h.node a).next = c ∨
      ((h.node a).next = none ∧ ∀ x, c = some x → (h.node x).prev = none)) ∧
    (LinkPairs (nodeSetPrev a (c.elim .none .node) h).2 ↔ (h.node a).prev = c ∨
      ((h.node a).prev = none ∧ ∀ x, c = some x → (h.node x).next = none)) := by
  constructor
  · obtain ⟨h', e, h1, h2, h3, -, h5, -⟩ := C96_set_next_doubly h a c
    rw [e]
    have hn : ∀ x, x ≠ a → (h'.node x).next = (h.node x).next := by
      intro x hx
      by_cases hc : c = some x
      · exact (h3 x hc).2 hx
      · rw [h5 x hx hc]
    have hp : ∀ x, c ≠ some x → (h'.node x).prev = (h.node x).prev := by
      intro x hc
      by_cases hx : x = a
      · subst hx; exact h2 hc
      · rw [h5 x hx hc]
    constructor
    · intro K
      by_cases hc : (h.node a).next = c
      · exact Or.inl hc
      · right
        refine ⟨?_, fun x hx => ?_⟩
        · cases ho : (h.node a).next with
          | none => rfl
          | some o =>
            rw [ho] at hc
            have := hp o (Ne.symm hc)
            rw [(H a o).1 ho] at this
            have := (K a o).2 this
            rw [h1] at this
            exact absurd this.symm hc
        · subst hx
          cases ho : (h.node x).prev with
          | none => rfl
          | some o =>
            have hon := (H o x).2 ho
            have hoa : o ≠ a := fun k => hc (by rw [← k]; exact hon)
            have h' := (K o x).1 (by rw [hn o hoa]; exact hon)
            rw [(h3 x rfl).1] at h'
            exact absurd (Option.some.inj h').symm hoa
    · rintro K x y
      by_cases hx : x = a
      · subst hx
        rw [h1]
        by_cases hy : c = some y
        · simp [hy, (h3 y hy).1]
        · rw [hp y hy, ← H x y]
          rcases K with K | ⟨K, -⟩
          · rw [K]
          · rw [K]; exact iff_of_false hy (by simp)
      · rw [hn x hx]
        by_cases hy : c = some y
        · rw [(h3 y hy).1]
          refine iff_of_false (fun k => ?_) (fun k => hx (Option.some.inj k).symm)
          have k' := (H x y).1 k
          rcases K with K | ⟨-, K⟩
          · have := (H a y).1 (K.trans hy)
            rw [k'] at this
            exact hx (Option.some.inj this)
          · rw [K y hy] at k'; exact absurd k' (by simp)
        · rw [hp y hy]; exact H x y
  · obtain ⟨h', e, h1, h2, h3, -, h5, -⟩ := C96_set_prev h a c
    rw [e]
    have hn : ∀ x, x ≠ a → (h'.node x).prev = (h.node x).prev := by
      intro x hx
      by_cases hc : c = some x
      · exact (h3 x hc).2 hx
      · rw [h5 x hx hc]
    have hp : ∀ x, c ≠ some x → (h'.node x).next = (h.node x).next := by
      intro x hc
      by_cases hx : x = a
      · subst hx; exact h2 hc
      · rw [h5 x hx hc]
    constructor
    · intro K
      by_cases hc : (h.node a).prev = c
      · exact Or.inl hc
      · right
        refine ⟨?_, fun x hx => ?_⟩
        · cases ho : (h.node a).prev with
          | none => rfl
          | some o =>
            rw [ho] at hc
            have := hp o (Ne.symm hc)
            rw [(H o a).2 ho] at this
            have := (K o a).1 this
            rw [h1] at this
            exact absurd this.symm hc
        · subst hx
          cases ho : (h.node x).next with
          | none => rfl
          | some o =>
            have hon := (H x o).1 ho
            have hoa : o ≠ a := fun k => hc (by rw [← k]; exact hon)
            have h' := (K x o).2 (by rw [hn o hoa]; exact hon)
            rw [(h3 x rfl).1] at h'
            exact absurd (Option.some.inj h').symm hoa
    · rintro K x y
      by_cases hy : y = a
      · subst hy
        rw [h1]
        by_cases hx : c = some x
        · simp [hx, (h3 x hx).1]
        · rw [hp x hx, H x y]
          rcases K with K | ⟨K, -⟩
          · rw [K]
          · rw [K]; exact iff_of_false (by simp) hx
      · rw [hn y hy]
        by_cases hx : c = some x
        · rw [(h3 x hx).1]
          refine iff_of_false (fun k => hy (Option.some.inj k).symm) (fun k => ?_)
          have k' := (H x y).2 k
          rcases K with K | ⟨-, K⟩
          · have := (H x a).2 (K.trans hx)
            rw [k'] at this
            exact hy (Option.some.inj this)
          · rw [K x hx] at k'; exact absurd k' (by simp)
        · rw [hp x hx]; exact H x y

/-- C96: what is not a node is refused, and nothing changes -/
theorem C96_refused (k : Kind) (h : Heap V X) (a : Addr) :
    nodeSetNext k a .other h = (.error .typeError, h) ∧ nodeSetPrev a .other h = (.error .typeError, h) :=
  ⟨rfl, rfl⟩

/-- C96: `a.set_data(item)` stores the item as the containers do, changing nothing else, or raises and
changes nothing -/
theorem C96_set_data (h : Heap V X) (a : Addr) (item : Item V) :
    match storeItem item with
    | .error e => nodeSetData a item h = (.error e, h)
    | .ok v => ∃ h', nodeSetData a item h = (.ok (), h') ∧ h'.node a = { h.node a with data := some v } ∧
        (∀ x, x ≠ a → h'.node x = h.node x) ∧ h'.lobj = h.lobj ∧ h'.nNodes = h.nNodes ∧
        h'.nLists = h.nLists := by
  cases item with
  | none => rfl
  | extra => rfl
  | val v =>
    refine ⟨_, rfl, ?_, ?_, rfl, rfl, rfl⟩
    · simp [Heap.setNode, upd]
    · intro x hx; simp [Heap.setNode, upd, hx]

/-- C96: `a.set_priority(p)` stores a number and refuses anything else, also `None` -/
theorem C96_set_priority (h : Heap V P) (a : Addr) (p : P) :
    (∃ h', nodeSetPriority a (.num p) h = (.ok (), h') ∧ h'.node a = { h.node a with ext := p } ∧
      (∀ x, x ≠ a → h'.node x = h.node x) ∧ h'.lobj = h.lobj) ∧
    nodeSetPriority a (.none p) h = (.error .typeError, h) ∧
    nodeSetPriority a .other h = (.error .typeError, h) := by
  refine ⟨⟨_, rfl, ?_, ?_, rfl⟩, rfl, rfl⟩
  · simp [Heap.setNode, upd]
  · intro x hx; simp [Heap.setNode, upd, hx]

/-! ## Concrete cases -/

/-- three fresh `DoublyNode`s -/
def threeDoubly : Heap Val Unit :=
  ((do
    let _ ← newNode () (.int 1)
    let _ ← newNode () (.int 2)
    newNode () (.int 3) : M Val Unit Addr) Heap.empty).2

/-- the links of the first three nodes -/
def linksOf (h : Heap Val Unit) : List (Option Addr × Option Addr) :=
  [0, 1, 2].map (fun a => ((h.node a).prev, (h.node a).next))

private theorem three_links : ∀ a, (threeDoubly.node a).next = none ∧ (threeDoubly.node a).prev = none := by
  intro a
  simp only [threeDoubly, newNode, bind, M.bind, Heap.empty, upd]
  split
  · exact ⟨rfl, rfl⟩
  · split
    · exact ⟨rfl, rfl⟩
    · split <;> exact ⟨rfl, rfl⟩

/-- the hypothesis of `C96_pairs_partial` holds for fresh nodes, and for those linked afterwards -/
theorem C96_fresh_pairs : LinkPairs threeDoubly ∧
    LinkPairs (nodeSetNext .dll 0 (.node 1) threeDoubly).2 := by
  have h : LinkPairs threeDoubly := fun a b => by simp [three_links]
  exact ⟨h, (C96_pairs_partial threeDoubly h 0 (some 1)).1.2
    (Or.inr ⟨(three_links 0).1, fun x _ => (three_links x).2⟩)⟩

/-- C96 fails: after `a.set_next(b)` and `a.set_next(c)`, `b` still has `a` as its previous node. -/
theorem C96_pairs_broken :
    ¬ ∀ (h : Heap Val Unit) (a c : Addr), LinkPairs h → LinkPairs (nodeSetNext .dll a (.node c) h).2 := by
  intro H
  have h := H _ 0 2 C96_fresh_pairs.2
  have := (h 0 1).2 (by decide +kernel)
  exact absurd this (by decide +kernel)

example : linksOf (nodeSetNext .dll 0 (.node 1) threeDoubly).2 = [(none, some 1), (some 0, none), (none, none)] ∧
    linksOf (nodeSetNext .dll 0 (.node 2) (nodeSetNext .dll 0 (.node 1) threeDoubly).2).2 =
      [(none, some 2), (some 0, none), (some 0, none)] ∧
    linksOf (nodeSetPrev 2 (.node 1) (nodeSetNext .dll 0 (.node 1) threeDoubly).2).2 =
      [(none, some 1), (some 0, some 2), (some 1, none)] := by decide +kernel

example : ((nodeSetData 1 (.val (.str "a\nb".toList)) threeDoubly).2.node 1).data =
      some (.str "a\\nb".toList) ∧
    (nodeSetData 1 .none threeDoubly).1 = .error .valueError := by decide +kernel

end Extra
