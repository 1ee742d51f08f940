import Verif.Trees.SuffixListProofs
import Verif.Props.Suffix
import Batteries.Lean.Except

/-!
# Iteration over `SuffixTrie`: C90

The specification is the suffix tree of the word without `$`, said with strings only: its places are the
suffixes closed with `$`, and the strings after which two of them go on differently (`SufPlace`); the depth
of a place is the number of places that are prefixes of it (`sufDepth`).
-/

namespace Extra

private def wordTrie (x : String) : SuffixTrie :=
  match SuffixTrie.new (.str x.toList) with
  | .ok s => s
  | .error _ => ⟨[], Trie.new, [], []⟩

/-! ## C90

Full statement: for every word `to_list` returns row after row the labels of the places of the suffix tree,
by depth; the label of a place is what its string adds to the longest place it continues.  This holds for
the words without ` ⟶ `; the labels of others are cut off there (C90_cut_short). -/

theorem C90_rows_partial {w : Word} {s : SuffixTrie} (h : SuffixTrie.new (.str w) = .ok s)
    (ha : ¬ " ⟶ ".toList <:+: noDollar w) :
    ∃ rows : List (List Word), s.toList = .ok rows.flatten ∧ rows.length = s.height ∧
    ∀ i row, rows[i]? = some row → ∃ ps : List Word, ps.Nodup ∧
      (∀ p, p ∈ ps ↔ SufPlace (noDollar w) p ∧ sufDepth (noDollar w) p = i + 1) ∧
      List.Forall₂ (fun p d => d ≠ [] ∧ ∃ q, (q = [] ∨ SufPlace (noDollar w) q) ∧ p = q ++ d ∧
        ∀ q', SufPlace (noDollar w) q' → q' <+: p → q' ≠ p → q' <+: q) ps row := by
  obtain ⟨w', e, _, _, hs, I⟩ := suffix_inv h
  cases e
  change s.word = noDollar w at hs
  rw [← hs] at ha ⊢
  exact I.rows ha

/-- C90: no place is missed: its depth is that of one of the rows -/
theorem C90_all_rows {w : Word} {s : SuffixTrie} (h : SuffixTrie.new (.str w) = .ok s) {p : Word}
    (hp : SufPlace (noDollar w) p) : 1 ≤ sufDepth (noDollar w) p ∧
      sufDepth (noDollar w) p ≤ s.height := by
  obtain ⟨w', e, _, _, hs, I⟩ := suffix_inv h
  cases e
  change s.word = noDollar w at hs
  rw [← hs] at hp ⊢
  obtain ⟨q, b, hq, hne, rfl⟩ := I.place_node hp
  obtain ⟨v, hv, _⟩ := (mem_strs I.trie.ok).1 hq
  obtain ⟨n, hd⟩ := hv.depth
  rw [I.node_depth hd, I.height]
  refine ⟨?_, (depth_iff I.trie.ok n).1 ⟨q, v, hd⟩⟩
  cases hd with
  | root => exact absurd rfl hne
  | child => omega

example : (wordTrie "banana").toList = .ok (["banana$", "a", "na", "$", "na", "$", "na$", "$", "na$",
      "$"].map String.toList) ∧
    (wordTrie "banana").height = 3 ∧ ¬ " ⟶ ".toList <:+: noDollar "banana".toList ∧
    SufPlace "banana".toList "ana".toList ∧ ¬ SufPlace "banana".toList "an".toList ∧
    sufDepth "banana".toList "anana$".toList = 3 := by
  decide +kernel

/-- C90, the negation: in a word with ` ⟶ ` the labels end there.  The whole word closed with `$` is a
place of depth one of the suffix tree of `a ⟶ b`; its label is `a`, instead of `a ⟶ b$`. -/
theorem C90_cut_short :
    (wordTrie "a ⟶ b").word = "a ⟶ b".toList ∧
    (wordTrie "a ⟶ b").toList = .ok (["a", " ", "⟶ b$", "b$", "$", "⟶ b$", "b$"].map String.toList) ∧
    SufPlace "a ⟶ b".toList "a ⟶ b$".toList ∧ sufDepth "a ⟶ b".toList "a ⟶ b$".toList = 1 := by
  decide +kernel

/-- C90: the height of the trie is the depth of the deepest place -/
theorem C90_height {w : Word} {s : SuffixTrie} (h : SuffixTrie.new (.str w) = .ok s) :
    (∃ p, SufPlace (noDollar w) p ∧ sufDepth (noDollar w) p = s.height) ∧
      ∀ p, SufPlace (noDollar w) p → sufDepth (noDollar w) p ≤ s.height := by
  refine ⟨?_, fun p hp => (C90_all_rows h hp).2⟩
  obtain ⟨w', e, _, _, hs, I⟩ := suffix_inv h
  cases e
  change s.word = noDollar w at hs
  rw [← hs]
  exact I.deepest

/-! ## C69, the exact answer

`get_longest_repeated_substring` does not look at all repeated strings (C69_wrong).  What it returns,
for every word: the longest among the branching places (the root is one) that are two levels or less
above the deepest place. -/

/-- the root or a branching place, at most two levels above the deepest place -/
def NearBottom (u : Word) (height : Nat) (p : Word) : Prop :=
  (p = [] ∨ (SufPlace u p ∧ '$' ∉ p)) ∧ height ≤ sufDepth u p + 2

theorem C69_exact {w : Word} {s : SuffixTrie} (h : SuffixTrie.new (.str w) = .ok s) :
    ∃ L, s.longestRepeated = .ok L ∧ L.Nodup ∧ ∀ x, x ∈ L ↔ NearBottom (noDollar w) s.height x ∧
      ∀ y, NearBottom (noDollar w) s.height y → y.length ≤ x.length := by
  obtain ⟨w', e, _, _, hs, I⟩ := suffix_inv h
  cases e
  change s.word = noDollar w at hs
  rw [← hs]
  obtain ⟨L, e, hn, hL⟩ := I.longestRepeated
  refine ⟨L, e, hn, fun x => (hL x).trans ?_⟩
  have key : ∀ y, (∃ n, InnerAt s.rt.root n y ∧ s.rt.root.rose.height ≤ n + 2) ↔
      NearBottom s.word s.height y := by
    intro y
    rw [NearBottom, I.height]
    constructor
    · rintro ⟨n, h1, h2⟩
      obtain ⟨h3, rfl⟩ := I.inner_iff.1 h1
      exact ⟨h3, h2⟩
    · rintro ⟨h1, h2⟩
      exact ⟨_, I.inner_iff.2 ⟨h1, rfl⟩, h2⟩
  rw [key]
  exact and_congr_right fun _ => ⟨fun h y hy => by
    obtain ⟨n, h1, h2⟩ := (key y).2 hy
    exact h y n h1 h2, fun h y n h1 h2 => h y ((key y).1 ⟨n, h1, h2⟩)⟩

/-- in `bcdebcdeaaaa` the deepest place is at depth 4, and `bcde`, which occurs twice, is at depth 1 -/
example : NearBottom "bcdebcdeaaaa".toList 4 "aaa".toList ∧
    ¬ NearBottom "bcdebcdeaaaa".toList 4 "bcde".toList ∧
    SufPlace "bcdebcdeaaaa".toList "bcde".toList ∧
    (wordTrie "bcdebcdeaaaa").height = 4 ∧
    (wordTrie "bcdebcdeaaaa").longestRepeated = .ok ["aaa".toList] := by
  refine ⟨⟨?_, ?_⟩, fun h => ?_, ?_⟩
  · decide +kernel
  · decide +kernel
  · have := h.2
    revert this
    decide +kernel
  · decide +kernel

end Extra
