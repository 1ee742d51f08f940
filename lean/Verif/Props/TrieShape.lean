import Verif.Trees.TrieShape
import Verif.Props.Tries
import Verif.Props.Radix

/-!
# Property C80: heights, leaves and levels of tries

`trAfter ops` is the `Trie` after a history of calls and `(trSpecs ops []).2` the words it holds;
`radAfter ops` is the `RadixTrie` and `radState ops` its words and the strings of its nodes.  `height`,
`leaves`, `toList` and `levels` are `get_height`, `count_leaf_nodes`, `to_list` and
`get_nodes_per_level` (Verif/Trees/Trie.lean).
-/

namespace Extra

/-! ## `Trie` -/

private theorem maximal_iff (S : List Word) (w : Word) :
    S.all (fun v => !w.isPrefixOf v || decide (v = w)) = true ↔ ∀ v ∈ S, w <+: v → v = w := by
  simp only [List.all_eq_true, Bool.or_eq_true, Bool.not_eq_true', decide_eq_true_eq,
    ← Bool.not_eq_true, List.isPrefixOf_iff_prefix]
  exact forall₂_congr fun v _ => by tauto

/-- C80: after any history `get_height` is the length of the longest word held, 0 if there is none -/
theorem C80_height (ops : List TrOp) :
    (∀ w ∈ (trSpecs ops []).2, w.length ≤ (trAfter ops).height) ∧
    ((trAfter ops).height = 0 ∨ ∃ w ∈ (trSpecs ops []).2, w.length = (trAfter ops).height) := by
  have I := trAfter_inv ops
  rw [Trie.height_eq I.count]
  constructor
  · intro w hw
    obtain ⟨v, hv, _⟩ := (mem_strs I.ok).1 ((I.words w).2 hw)
    obtain ⟨n, hd⟩ := hv.depth
    rw [I.depth hd]
    exact (depth_iff I.ok n).1 ⟨_, _, hd⟩
  · obtain ⟨p, v, hd⟩ := (depth_iff I.ok (trAfter ops).root.rose.height).2 le_rfl
    have hl := I.depth hd
    have hr := (I.nodes p).1 ⟨_, (mem_strs I.ok).2 ⟨v, hd.at, rfl⟩⟩
    rcases reaches_iff.1 hr with rfl | ⟨w, hw, hp⟩
    · left; rw [← hl]; rfl
    · right
      refine ⟨w, hw, le_antisymm ?_ (hl ▸ hp.length_le)⟩
      obtain ⟨v', hv', _⟩ := (mem_strs I.ok).1 ((I.words w).2 hw)
      obtain ⟨m, hd'⟩ := hv'.depth
      rw [I.depth hd']
      exact (depth_iff I.ok m).1 ⟨_, _, hd'⟩

/-- C80: `count_leaf_nodes` is the number of words held that do not begin another word held -/
theorem C80_leaves (ops : List TrOp) : ∃ L : List Word, L.Nodup ∧
    (∀ w, w ∈ L ↔ w ∈ (trSpecs ops []).2 ∧ ∀ v ∈ (trSpecs ops []).2, w <+: v → v = w) ∧
    (trAfter ops).leaves = L.length := by
  have I := trAfter_inv ops
  refine ⟨_, I.nodup.filter _, fun w => ?_, Trie.leaves_spec I.ok I.count I.words I.nodup I.nil
    (fun q b h => (I.nodes q).1 ⟨b, h⟩)⟩
  rw [List.mem_filter, maximal_iff]

/-- C80: `get_nodes_per_level` has a row for each length up to the longest word; row `i` consists of the
last characters of the different prefixes of `i + 1` characters of the words held.  `to_list` is the
rows one after another, and `get_depth` is 0. -/
theorem C80_levels (ops : List TrOp) : ∃ rows, (trAfter ops).levels = .ok rows ∧
    (trAfter ops).toList = .ok rows.flatten ∧ rows.length = (trAfter ops).height ∧
    (trAfter ops).depth = 0 ∧
    ∀ i row, rows[i]? = some row → ∃ ps : List Word, ps.Nodup ∧
      (∀ p, p ∈ ps ↔ p.length = i + 1 ∧ ∃ w ∈ (trSpecs ops []).2, p <+: w) ∧
      row = ps.map (fun p => p.drop i) := by
  have I := trAfter_inv ops
  obtain ⟨h1, h2⟩ := Trie.rows_spec I.count
  refine ⟨_, h1, h2, by simp, by simp [Trie.depth, RTree.depthOf], ?_⟩
  intro i row hr
  rw [List.getElem?_map, Option.map_eq_some_iff] at hr
  obtain ⟨j, hj, rfl⟩ := hr
  have hlt : i < (trAfter ops).height := by
    have := (List.getElem?_eq_some_iff.1 hj).1
    simpa using this
  rw [List.getElem?_range' hlt] at hj
  cases hj
  obtain ⟨ps, hn, hm, hf⟩ := TNode.row_spec I.ok (1 + 1 * i)
  refine ⟨ps, hn, fun p => ?_, ?_⟩
  · rw [hm]
    constructor
    · rintro ⟨v, hd⟩
      have hl := I.depth hd
      refine ⟨by omega, ?_⟩
      have hr := (I.nodes p).1 ⟨_, (mem_strs I.ok).2 ⟨v, hd.at, rfl⟩⟩
      rcases reaches_iff.1 hr with rfl | h
      · simp at hl; omega
      · exact h
    · rintro ⟨hl, hw⟩
      obtain ⟨b, hb⟩ := (I.nodes p).2 (reaches_iff.2 (Or.inr hw))
      obtain ⟨v, hv, _⟩ := (mem_strs I.ok).1 hb
      obtain ⟨n, hd⟩ := hv.depth
      have := I.depth hd
      have e : n = 1 + 1 * i := by omega
      exact ⟨v, e ▸ hd⟩
  · have : List.Forall₂ (fun p d => d = List.drop i p) ps ((trAfter ops).root.row (1 + 1 * i)) := by
      refine hf.imp ?_
      rintro p d ⟨v, hd, rfl⟩
      generalize hm' : 1 + 1 * i = m at hd
      cases hd with
      | root => omega
      | child h hc =>
        rename_i m p u c
        have e := I.depth h
        rw [List.drop_left' (by omega)]
    rw [← List.forall₂_eq_eq_eq, List.forall₂_map_right_iff]
    exact this.flip.imp fun a b h => h

/-- words `card`, `cat` and `ca` -/
def shapeSample : List TrOp := [.insert (.str "card".toList), .insert (.str "cat".toList),
  .insert (.str "ca".toList), .insert (.str "dog".toList), .remove (.str "dog".toList)]

example : (trSpecs shapeSample []).2 = ["card".toList, "cat".toList, "ca".toList] ∧
    (trAfter shapeSample).height = 4 ∧ (trAfter shapeSample).leaves = 2 ∧
    (trAfter shapeSample).levels = .ok [["c".toList], ["a".toList], ["r".toList, "t".toList], ["d".toList]] ∧
    (trAfter shapeSample).toList = .ok ["c".toList, "a".toList, "r".toList, "t".toList, "d".toList] := by
  decide +kernel

/-! ## `RadixTrie` -/

/-- C80: after any history `count_leaf_nodes` of a `RadixTrie` is the number of words held that do not
begin another word held -/
theorem C80_radix_leaves (ops : List TrOp) : ∃ L : List Word, L.Nodup ∧
    (∀ w, w ∈ L ↔ w ∈ (radState ops).words ∧ ∀ v ∈ (radState ops).words, w <+: v → v = w) ∧
    (radAfter ops).leaves = L.length := by
  have I := radAfter_inv ops
  refine ⟨_, I.wnodup.filter _, fun w => ?_, Trie.leaves_spec I.ok I.count I.words I.wnodup I.nil
    (fun q b h => I.cover q ((I.nodes q).1 ⟨b, h⟩))⟩
  rw [List.mem_filter, maximal_iff]

/-- C80: `get_height` of a `RadixTrie` is the largest number of nodes on the way to a word, and no word
held is shorter than the number of nodes on its way -/
theorem C80_radix_height (ops : List TrOp) :
    (∀ w ∈ (radState ops).words, depthIn (radState ops).nodes w ≤ (radAfter ops).height ∧
      depthIn (radState ops).nodes w ≤ w.length) ∧
    ((radAfter ops).height = 0 ∨
      ∃ w ∈ (radState ops).words, depthIn (radState ops).nodes w = (radAfter ops).height) := by
  have I := radAfter_inv ops
  rw [Trie.height_eq I.count]
  have dep : ∀ {n p v}, NodeDepth (radAfter ops).root n p v →
      depthIn (radState ops).nodes p = n := fun hd => hd.depthIn I.ok I.nnodup I.nodes
  have word : ∀ w ∈ (radState ops).words, ∃ n v, NodeDepth (radAfter ops).root n w v := by
    intro w hw
    obtain ⟨v, hv, _⟩ := (mem_strs I.ok).1 ((I.words w).2 hw)
    obtain ⟨n, hd⟩ := hv.depth
    exact ⟨n, v, hd⟩
  have short : ∀ {n p v}, NodeDepth (radAfter ops).root n p v → n ≤ p.length := by
    intro n p v hd
    induction hd with
    | root => simp
    | child h hc ih =>
      have := List.length_pos_of_ne_nil (data_ne ((h.at.ok I.ok).child hc).1)
      rw [List.length_append]; omega
  constructor
  · intro w hw
    obtain ⟨n, v, hd⟩ := word w hw
    rw [dep hd]
    exact ⟨(depth_iff I.ok n).1 ⟨_, _, hd⟩, short hd⟩
  · obtain ⟨p, v, hd⟩ := (depth_iff I.ok (radAfter ops).root.rose.height).2 le_rfl
    have hp := (I.nodes p).1 ⟨_, (mem_strs I.ok).2 ⟨v, hd.at, rfl⟩⟩
    rcases reaches_iff.1 (I.cover p hp) with rfl | ⟨w, hw, hpw⟩
    · left
      have := dep hd
      rw [← this, depthIn, List.length_eq_zero_iff, List.filter_eq_nil_iff]
      intro q _
      simp only [Bool.and_eq_true, decide_eq_true_eq, List.isPrefixOf_iff_prefix, not_and]
      exact fun h1 h2 => h1 (List.prefix_nil.1 h2)
    · right
      obtain ⟨n, v', hd'⟩ := word w hw
      refine ⟨w, hw, le_antisymm ?_ ?_⟩
      · rw [dep hd']
        exact (depth_iff I.ok n).1 ⟨_, _, hd'⟩
      · rw [← dep hd, depthIn, depthIn]
        refine (List.monotone_filter_right _ ?_).length_le
        intro q
        simp only [Bool.and_eq_true, decide_eq_true_eq, List.isPrefixOf_iff_prefix]
        exact fun h => ⟨h.1, h.2.trans hpw⟩

/-- C80: row `i` of `get_nodes_per_level` of a `RadixTrie` belongs to the nodes with `i` nodes on the way;
the label of each is what its string adds to the longest string of a node it continues.  `to_list` is
the rows one after another. -/
theorem C80_radix_levels (ops : List TrOp) : ∃ rows, (radAfter ops).levels = .ok rows ∧
    (radAfter ops).toList = .ok rows.flatten ∧ rows.length = (radAfter ops).height ∧
    (radAfter ops).depth = 0 ∧
    ∀ i row, rows[i]? = some row → ∃ ps : List Word, ps.Nodup ∧
      (∀ p, p ∈ ps ↔ p ∈ (radState ops).nodes ∧ depthIn (radState ops).nodes p = i + 1) ∧
      List.Forall₂ (fun p d => d ≠ [] ∧ ∃ q ∈ (radState ops).nodes, p = q ++ d ∧
        ∀ q' ∈ (radState ops).nodes, q' <+: p → q' ≠ p → q' <+: q) ps row := by
  have I := radAfter_inv ops
  obtain ⟨h1, h2⟩ := Trie.rows_spec I.count
  refine ⟨_, h1, h2, by simp, by simp [Trie.depth, RTree.depthOf], ?_⟩
  intro i row hr
  rw [List.getElem?_map, Option.map_eq_some_iff] at hr
  obtain ⟨j, hj, rfl⟩ := hr
  have hlt : i < (radAfter ops).height := by
    have := (List.getElem?_eq_some_iff.1 hj).1
    simpa using this
  rw [List.getElem?_range' hlt] at hj
  cases hj
  obtain ⟨ps, hn, hm, hf⟩ := TNode.row_spec I.ok (1 + 1 * i)
  have dep : ∀ {n p v}, NodeDepth (radAfter ops).root n p v →
      depthIn (radState ops).nodes p = n := fun hd => hd.depthIn I.ok I.nnodup I.nodes
  refine ⟨ps, hn, fun p => ?_, ?_⟩
  · rw [hm]
    constructor
    · rintro ⟨v, hd⟩
      exact ⟨(I.nodes p).1 ⟨_, (mem_strs I.ok).2 ⟨v, hd.at, rfl⟩⟩, by rw [dep hd]; omega⟩
    · rintro ⟨hp, hl⟩
      obtain ⟨b, hb⟩ := (I.nodes p).2 hp
      obtain ⟨v, hv, _⟩ := (mem_strs I.ok).1 hb
      obtain ⟨n, hd⟩ := hv.depth
      have := dep hd
      have e : n = 1 + 1 * i := by omega
      exact ⟨v, e ▸ hd⟩
  · refine hf.imp ?_
    rintro p d ⟨v, hd, rfl⟩
    generalize hm' : 1 + 1 * i = m at hd
    cases hd with
    | root => omega
    | child h hc =>
      rename_i n q u c
      refine ⟨data_ne ((h.at.ok I.ok).child hc).1, q,
        (I.nodes q).1 ⟨_, (mem_strs I.ok).2 ⟨u, h.at, rfl⟩⟩, rfl, ?_⟩
      intro q' hq' hp hne
      obtain ⟨b, hb⟩ := (I.nodes q').2 hq'
      exact (h.between I.ok hc hb hp).resolve_right hne

example : (radState shapeSample).words = ["card".toList, "cat".toList, "ca".toList] ∧
    (radAfter shapeSample).height = 2 ∧ (radAfter shapeSample).leaves = 2 ∧
    (radAfter shapeSample).levels = .ok [["ca".toList], ["rd".toList, "t".toList]] ∧
    depthIn (radState shapeSample).nodes "cat".toList = 2 := by
  decide +kernel

end Extra
