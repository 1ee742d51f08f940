import Verif.Trees.DrawTrieProofs
import Verif.Props.Tries
import Verif.Props.Radix

/-!
# Properties C81 and C82: the drawings of `Tree`, `Trie` and `RadixTrie`

`treeRepr` is `Tree.__repr__` and `Trie.repr` is that of the tries (Verif/Trees/Draw.lean); `rep` gives
the label of a node.  `RTree.lineAt` is the line the drawing should have for the node at a path,
`RTree.labels` the tree of the labels, and `RTree.OneLine` says that no label has a line break
(Verif/Trees/DrawTreeProofs.lean; the constructor of a `TreeNode` escapes line breaks in strings).
-/

namespace Extra
variable {V W : Type}

/-! ## C81: `Tree` -/

/-- C81: the drawing of a tree has one line for each node, depth first, and the line of a node is
indented by two columns for each node above it but the root: with a bar where that node has further
siblings, then `├` or `└` for the node itself, then `┬` if it has children, then its label -/
theorem C81_lines (rep : V → List Char) (t : RTree V) : ∃ ps : List (List Nat),
    ps.Pairwise (fun p q => lexLt p q = true) ∧ (∀ p, p ∈ ps ↔ (treeAt (some t) p).isSome) ∧
    treeRepr rep rep (some t) = joinLines (ps.map (t.lineAt rep)) := by
  refine ⟨t.paths, RTree.paths_pairwise t, fun p => ?_, ?_⟩
  · rw [RTree.mem_paths, treeAt, treeSub, Option.isSome_map]
  · rw [treeRepr_some, RTree.draw_lines]

/-- C81, partial: two trees with the same drawing have the same shape and the same labels.  What is
missing is the empty tree, which is drawn like the tree with the single label `--`. -/
theorem C81_faithful_partial {rep : V → List Char} {rep' : W → List Char} {s : RTree V} {t : RTree W}
    (hs : s.OneLine rep) (ht : t.OneLine rep')
    (h : treeRepr rep rep (some s) = treeRepr rep' rep' (some t)) : s.labels rep = t.labels rep' :=
  treeRepr_inj hs ht h

/-- C81: the empty tree is drawn like a tree of one node, and only if its label is `--` -/
theorem C81_empty {rep : V → List Char} {t : RTree V} (ht : t.OneLine rep) :
    treeRepr rep rep (some t) = treeRepr rep rep none ↔ t.labels rep = .node ['-', '-'] [] := by
  have e : treeRepr rep rep none = treeRepr id id (some (.node ['-', '-'] [])) := rfl
  constructor
  · intro h
    rw [e] at h
    refine (treeRepr_inj ht ?_ h).trans (by simp [RTree.labels, RTree.labelsAll])
    intro p s hs
    cases p with
    | nil => rw [RTree.sub_nil] at hs; cases hs; decide
    | cons i p => rw [RTree.sub_cons] at hs; simp at hs
  · obtain ⟨d, cs⟩ := t
    intro h
    rw [RTree.labels, RTree.node.injEq] at h
    cases cs with
    | nil => rw [treeRepr]; simp [h.1, treeRepr]
    | cons c cs => rw [RTree.labelsAll] at h; cases h.2

/-- C81 fails: not every two different trees are drawn differently -/
theorem C81_empty_wrong : ¬ ∀ s t : Option (RTree (List Char)),
    treeRepr id id s = treeRepr id id t → (s.isSome ↔ t.isSome) := by
  intro h
  have := h none (some (.node ['-', '-'] [])) rfl
  simp at this

private def family : RTree (List Char) :=
  .node "Simpsons".toList [.node "Abraham".toList [.node "Herb".toList [],
    .node "Homer".toList [.node "Bart".toList []]], .node "Mona".toList []]

example : treeRepr id id (some family) =
    "Simpsons\n├─┬ Abraham\n│ ├── Herb\n│ └─┬ Homer\n│   └── Bart\n└── Mona".toList := by
  decide +kernel

example : family.lineAt id [0, 1, 0] = "│   └── Bart".toList ∧ family.lineAt id [1] = "└── Mona".toList := by
  decide +kernel

/-! ## C82: `Trie` and `RadixTrie` -/

/-- C82: if no word held has a line break, two `Trie`s with the same drawing hold the same words -/
theorem C82_same_words (ops ops' : List TrOp) (h : ∀ w ∈ (trSpecs ops []).2, '\n' ∉ w)
    (h' : ∀ w ∈ (trSpecs ops' []).2, '\n' ∉ w) (hr : (trAfter ops).repr = (trAfter ops').repr)
    (w : Word) : w ∈ (trSpecs ops []).2 ↔ w ∈ (trSpecs ops' []).2 := by
  have I := trAfter_inv ops
  have I' := trAfter_inv ops'
  have e := Trie.repr_inj (P := fun x : Word × Bool => x.1.length = 1 ∧ '\n' ∉ x.1) (by
    rintro ⟨a, b⟩ ⟨a', b'⟩ ⟨l, _⟩ ⟨l', _⟩ e
    cases b <;> cases b' <;> simp only [trieLabel, if_true, if_false, Bool.false_eq_true] at e
    · rw [e]
    · have := congrArg List.length e; simp at this l l'; omega
    · have := congrArg List.length e; simp at this l l'; omega
    · rw [List.append_cancel_right e]) (fun x hx => hx.2) I.count I'.count I.rootWord I'.rootWord I.data
    I'.data (I.every h) (I'.every h') hr
  rw [← I.words, ← I'.words, e]

/-- C82, partial: the same for a `RadixTrie`, if no word has a check mark.  What is missing are words
with check marks, see `C82_radix_wrong`. -/
theorem C82_radix_same_words_partial (ops ops' : List TrOp)
    (h : ∀ w ∈ (radState ops).words, '\n' ∉ w ∧ '✓' ∉ w)
    (h' : ∀ w ∈ (radState ops').words, '\n' ∉ w ∧ '✓' ∉ w)
    (hr : (radAfter ops).repr = (radAfter ops').repr) (w : Word) :
    w ∈ (radState ops).words ↔ w ∈ (radState ops').words := by
  have I := radAfter_inv ops
  have I' := radAfter_inv ops'
  have e := Trie.repr_inj (P := fun x : Word × Bool => '✓' ∉ x.1 ∧ '\n' ∉ x.1) (by
    rintro ⟨a, b⟩ ⟨a', b'⟩ ⟨l, _⟩ ⟨l', _⟩ e
    cases b <;> cases b' <;> simp only [trieLabel, if_true, if_false, Bool.false_eq_true] at e
    · rw [e]
    · rw [e] at l; simp at l
    · rw [← e] at l'; simp at l'
    · rw [List.append_cancel_right e]) (fun x hx => hx.2) I.count I'.count I.rootWord I'.rootWord I.data
    I'.data (I.every (fun w hw => (h w hw).1) (fun w hw => (h w hw).2))
    (I'.every (fun w hw => (h' w hw).1) (fun w hw => (h' w hw).2)) hr
  rw [← I.words, ← I'.words, e]

/-- C82 fails for a `RadixTrie`: the same drawing for different words -/
theorem C82_radix_wrong :
    (radAfter [.insert (.str "r ✓x".toList), .insert (.str "r ✓y".toList)]).repr =
      "ROOT\n└─┬ r ✓\n  ├── x ✓\n  └── y ✓".toList ∧
    (radAfter [.insert (.str "rx".toList), .insert (.str "ry".toList), .insert (.str "r".toList)]).repr =
      "ROOT\n└─┬ r ✓\n  ├── x ✓\n  └── y ✓".toList := by
  decide +kernel

/-- C82: why line breaks are left out: unlike a `TreeNode`, a `TrieNode` does not escape them, so the
line of a node is broken and the drawing has more lines than nodes -/
theorem C82_break :
    (trAfter [.insert (.str "a\n".toList)]).repr = "ROOT\n└─┬ a\n  └── \n ✓".toList := by
  decide +kernel

example : (trAfter [.insert (.str "car".toList), .insert (.str "cat".toList),
      .insert (.str "ca".toList)]).repr =
    "ROOT\n└─┬ c\n  └─┬ a ✓\n    ├── r ✓\n    └── t ✓".toList := by
  decide +kernel

end Extra
