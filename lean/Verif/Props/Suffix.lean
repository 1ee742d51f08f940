import Verif.Trees.SuffixDeep
import Verif.Trees.SuffixArray
import Verif.Trees.Palindrome
import Batteries.Lean.Except

/-!
# Properties of `SuffixTrie`

C65: `has_substring`.  C66: `count_pattern_occurrences`.  C67: `get_lowest_common_ancestor`.
C68: `to_suffix_array`.  C69: `get_longest_repeated_substring`.  C70: `get_lcp` and `is_palindrome`.
C73: `count_leaf_nodes`.

The constructor drops every `$` from the word: `noDollar` below.
-/

set_option linter.unusedSimpArgs false

namespace Extra

/-- the word without its `$` -/
def noDollar (w : Word) : Word := w.filter (fun c => decide (c ≠ '$'))

private def sa (x : String) : StrArg := .str x.toList

/-- the trie of a word; for the examples -/
private def tr (x : String) : SuffixTrie :=
  match SuffixTrie.new (sa x) with
  | .ok s => s
  | .error _ => ⟨[], Trie.new, [], []⟩

/-! ## C65 -/

/-- what the constructor does with any argument: `}` makes it fail half way -/
theorem C65_new (x : StrArg) :
    (∀ w, x = .str w → w ≠ [] → '}' ∉ w → ∃ s, SuffixTrie.new x = .ok s ∧ s.word = noDollar w) ∧
    (∀ w, x = .str w → '}' ∈ w → SuffixTrie.new x = .error .attributeError) ∧
    (x = .str [] ∨ x = .none → SuffixTrie.new x = .error .valueError) ∧
    (x = .other → SuffixTrie.new x = .error .typeError) := by
  refine ⟨?_, ?_, ?_, ?_⟩
  · rintro w rfl h1 h2
    obtain ⟨s, e, h, _⟩ := suffix_new h1 h2
    exact ⟨s, e, h⟩
  · rintro w rfl h
    exact suffix_new_brace h
  · rintro (rfl | rfl) <;> rfl
  · rintro rfl; rfl

example : (SuffixTrie.new (sa "ba$na")).map (·.word) = .ok "bana".toList ∧
    SuffixTrie.new (sa "a}b") = .error .attributeError := by decide +kernel

/-- `has_substring` tells whether the pattern occurs in the word -/
theorem C65_has_substring {w : Word} {s : SuffixTrie} (h : SuffixTrie.new (.str w) = .ok s) {p : Word}
    (h1 : '$' ∉ p) (h2 : '}' ∉ p) :
    ∃ b, s.hasSubstring (.str p) = .ok b ∧ (b = true ↔ p <:+: noDollar w) := by
  obtain ⟨w', e, _, _, hs, I⟩ := suffix_inv h
  cases e
  have := I.hasSubstring h1 h2
  rwa [hs] at this

example : (tr "banana").hasSubstring (sa "nan") = .ok true ∧
    (tr "banana").hasSubstring (sa "nab") = .ok false ∧
    (tr "banana").hasSubstring (sa "") = .ok true := by decide +kernel

/-- a pattern that is not a string occurs nowhere -/
theorem C65_other (s : SuffixTrie) :
    s.hasSubstring .none = .ok false ∧ s.hasSubstring .other = .ok false := ⟨rfl, rfl⟩

/-- with the reserved characters the answers are wrong: neither pattern occurs in `"ab"` -/
theorem C65_reserved : (tr "ab").hasSubstring (sa "b$") = .ok true ∧
    (tr "ab").hasSubstring (sa "}") = .ok true ∧ '$' ∉ (tr "ab").word ∧ '}' ∉ (tr "ab").word := by
  decide +kernel

/-! ## C66 -/

/-- `count_pattern_occurrences` counts the positions at which the pattern occurs.

Missing from the full statement: patterns with `$` or `}`, for which the count is wrong or an exception
is raised, see `C66_reserved`. -/
theorem C66_count_partial {w : Word} {s : SuffixTrie} (h : SuffixTrie.new (.str w) = .ok s) {p : Word}
    (hp : p ≠ []) (h1 : '$' ∉ p) (h2 : '}' ∉ p) :
    s.countPattern (.str p) = .ok (occurrences (noDollar w) p).length := by
  obtain ⟨w', e, _, _, hs, I⟩ := suffix_inv h
  cases e
  rw [I.countPattern hp h1 h2, hs]
  rfl

example : (tr "banana").countPattern (sa "ana") = .ok 2 ∧
    occurrences "banana".toList "ana".toList = [1, 3] ∧
    (tr "banana").countPattern (sa "nab") = .ok 0 := by decide +kernel

/-- the empty pattern and patterns that are not strings are counted as 0 -/
theorem C66_empty (s : SuffixTrie) : s.countPattern (.str []) = .ok 0 ∧ s.countPattern .none = .ok 0 ∧
    s.countPattern .other = .ok 0 := by
  refine ⟨?_, rfl, rfl⟩
  have : s.rt.follow [] = .ok (.node [] s.rt.root, []) := by rfl
  rw [SuffixTrie.countPattern, this]
  simp

/-- `$` does not occur in the word and is counted; `}` makes an assertion fail -/
theorem C66_reserved : (tr "ab").countPattern (sa "$") = .ok 1 ∧
    (tr "ab").countPattern (sa "}") = .error .assertionError ∧
    (tr "ab").countPattern (sa "}a") = .error .attributeError ∧
    occurrences (tr "ab").word "$".toList = [] := by
  decide +kernel

/-! ## C67 -/

/-- for two different positions `get_lowest_common_ancestor` is the longest common prefix of the two
suffixes -/
theorem C67_lca {w : Word} {s : SuffixTrie} (h : SuffixTrie.new (.str w) = .ok s) {i j : Nat}
    (hi : i < (noDollar w).length) (hj : j ≤ (noDollar w).length) (hij : i ≠ j) :
    ∃ x, s.lca (.int i) (.int j) = .ok x ∧ x <+: (noDollar w).drop i ∧ x <+: (noDollar w).drop j ∧
      ∀ y, y <+: (noDollar w).drop i → y <+: (noDollar w).drop j → y <+: x := by
  obtain ⟨w', e, _, _, hs, I⟩ := suffix_inv h
  cases e
  change s.word = noDollar w at hs
  rw [← hs] at hi hj ⊢
  exact I.lca hi hj hij

example : (tr "banana").lca (.int 1) (.int 3) = .ok "ana".toList ∧
    (tr "banana").lca (.int 0) (.int 3) = .ok [] := by decide +kernel

/-- for one position it is the longest prefix of the suffix that also occurs elsewhere -/
theorem C67_same {w : Word} {s : SuffixTrie} (h : SuffixTrie.new (.str w) = .ok s) {i : Nat}
    (hi : i < (noDollar w).length) :
    ∃ x, s.lca (.int i) (.int i) = .ok x ∧ x <+: (noDollar w).drop i ∧
      (x ≠ [] → ∃ k ≤ (noDollar w).length, k ≠ i ∧ x <+: (noDollar w).drop k) ∧
      ∀ y k, k ≤ (noDollar w).length → k ≠ i → y <+: (noDollar w).drop i → y <+: (noDollar w).drop k →
        y <+: x := by
  obtain ⟨w', e, _, _, hs, I⟩ := suffix_inv h
  cases e
  change s.word = noDollar w at hs
  rw [← hs] at hi ⊢
  obtain ⟨x, e, h1, h2, h3⟩ := I.parent hi.le
  refine ⟨x, ?_, h1, h2, h3⟩
  rw [SuffixTrie.lca, if_neg (by omega), if_neg (by omega), I.leaves]
  simp only [Int.toNat_natCast]
  rw [lookup_range _ _ _ (by omega)]
  simp only [e]
  have := (getLcp_isLcp x x).2.2 x List.prefix_rfl List.prefix_rfl
  rw [(this.eq_of_length_le (getLcp_isLcp x x).1.length_le).symm]

example : (tr "banana").lca (.int 1) (.int 1) = .ok "ana".toList ∧
    (tr "banana").lca (.int 0) (.int 0) = .ok [] := by decide +kernel

/-- every other call raises; the two indices are not treated alike, the length is allowed as the second
only -/
theorem C67_refused {w : Word} {s : SuffixTrie} (h : SuffixTrie.new (.str w) = .ok s) :
    (∀ i j, (i = .other ∨ j = .other) → s.lca i j = .error .typeError) ∧
    (∀ i j : Int, (i < 0 ∨ j < 0 ∨ (noDollar w).length ≤ i ∨ (noDollar w).length < j) →
      s.lca (.int i) (.int j) = .error .valueError) := by
  obtain ⟨w', e, _, _, hs, I⟩ := suffix_inv h
  cases e
  change s.word = noDollar w at hs
  refine ⟨?_, ?_⟩
  · rintro i j (rfl | rfl)
    · rfl
    · cases i <;> rfl
  · intro i j hij
    rw [← hs] at hij
    rw [SuffixTrie.lca]
    by_cases h1 : i < 0 ∨ j < 0
    · rw [if_pos h1]
    · rw [if_neg h1, if_pos (by omega)]

example : (tr "ab").lca (.int 0) (.int 2) = .ok [] ∧
    (tr "ab").lca (.int 2) (.int 0) = .error .valueError := by decide +kernel

/-! ## C68 -/

/-- `L` lists the positions of `w` by the alphabetical order of the suffixes -/
def IsSuffixArray (w : Word) (L : List Nat) : Prop :=
  L.Perm (List.range (w.length + 1)) ∧ L.Pairwise (fun i j => w.drop i < w.drop j)

/-- the positions are always listed once each -/
theorem C68_permutation {w : Word} {s : SuffixTrie} (h : SuffixTrie.new (.str w) = .ok s) :
    s.toSuffixArray.Perm (List.range ((noDollar w).length + 1)) := by
  obtain ⟨w', e, _, _, hs, I⟩ := suffix_inv h
  cases e
  change s.word = noDollar w at hs
  rw [← hs]
  exact I.array_perm

/-- `to_suffix_array` is the suffix array exactly for the words without characters before `$`, such as
the space or `"!"`.

Missing from the full statement: those words, see `C68_before_dollar`. -/
theorem C68_suffix_array_partial {w : Word} {s : SuffixTrie} (h : SuffixTrie.new (.str w) = .ok s) :
    IsSuffixArray (noDollar w) s.toSuffixArray ↔ ∀ c ∈ noDollar w, '$' < c := by
  obtain ⟨w', e, _, _, hs, I⟩ := suffix_inv h
  cases e
  change s.word = noDollar w at hs
  rw [← hs, IsSuffixArray, I.array_iff]
  exact ⟨fun h => h.2, fun h => ⟨I.array_perm, h⟩⟩

example : (tr "banana").toSuffixArray = [6, 5, 3, 1, 0, 4, 2] := by decide +kernel

example : ∀ c ∈ noDollar "banana".toList, '$' < c := by decide +kernel

/-- the empty suffix comes after the suffix `"!"` -/
theorem C68_before_dollar : (tr "!").toSuffixArray = [0, 1] ∧
    ¬ IsSuffixArray "!".toList [0, 1] ∧ IsSuffixArray "!".toList [1, 0] := by
  refine ⟨by decide +kernel, ?_, ?_⟩
  · intro h
    have := h.2
    revert this
    decide +kernel
  · exact ⟨by decide +kernel, by decide +kernel⟩

/-! ## C69 -/

/-- no string is returned twice, some string is returned, all have the same length, and every string
returned but the empty one occurs at two positions -/
theorem C69_repeated {w : Word} {s : SuffixTrie} (h : SuffixTrie.new (.str w) = .ok s) :
    ∃ L, s.longestRepeated = .ok L ∧ L.Nodup ∧ L ≠ [] ∧ (∀ x ∈ L, ∀ y ∈ L, x.length = y.length) ∧
      ∀ x ∈ L, x = [] ∨ RepeatedIn (noDollar w) x := by
  obtain ⟨w', e, _, _, hs, I⟩ := suffix_inv h
  cases e
  change s.word = noDollar w at hs
  rw [← hs]
  obtain ⟨L, e, hn, hL⟩ := I.longestRepeated
  refine ⟨L, e, hn, ?_, ?_, ?_⟩
  · exact SuffixInv.lrs_ne I e
  · intro x hx y hy
    obtain ⟨⟨n, h1, h2⟩, h3⟩ := (hL x).1 hx
    obtain ⟨⟨m, k1, k2⟩, k3⟩ := (hL y).1 hy
    exact le_antisymm (k3 x n h1 h2) (h3 y m k1 k2)
  · intro x hx
    obtain ⟨⟨n, h1, _⟩, _⟩ := (hL x).1 hx
    by_cases hx0 : x = []
    · exact Or.inl hx0
    · exact Or.inr (I.inner_repeated h1 hx0)

/-- `get_longest_repeated_substring` returns exactly the longest strings that occur at two positions,
for tries of height 3 or less.

Missing from the full statement: higher tries, see `C69_wrong` and `C69_incomplete`. -/
theorem C69_longest_partial {w : Word} {s : SuffixTrie} (h : SuffixTrie.new (.str w) = .ok s)
    (hw : noDollar w ≠ []) (hh : s.height ≤ 3) :
    ∃ L, s.longestRepeated = .ok L ∧ L.Nodup ∧ ∀ x, x ∈ L ↔
      RepeatedIn (noDollar w) x ∧ ∀ y, RepeatedIn (noDollar w) y → y.length ≤ x.length := by
  obtain ⟨w', e, _, _, hs, I⟩ := suffix_inv h
  cases e
  change s.word = noDollar w at hs
  rw [← hs] at hw ⊢
  obtain ⟨L, e, hn, _⟩ := I.longestRepeated
  exact ⟨L, e, hn, I.exact hw hh e⟩

example : (tr "banana").longestRepeated = .ok ["ana".toList] ∧ (tr "banana").height = 3 ∧
    (tr "abcabxbc").longestRepeated = .ok ["bc".toList, "ab".toList] ∧
    (tr "abc").longestRepeated = .ok [[]] := by decide +kernel

/-- `"bcde"` occurs twice and is longer than the only string returned -/
theorem C69_wrong : (tr "bcdebcdeaaaa").longestRepeated = .ok ["aaa".toList] ∧
    (tr "bcdebcdeaaaa").height = 4 ∧ RepeatedIn (tr "bcdebcdeaaaa").word "bcde".toList :=
  ⟨by decide +kernel, by decide +kernel, 0, 4, by decide +kernel, by decide +kernel, by decide +kernel,
    by decide +kernel⟩

/-- `"bcd"` occurs twice, is as long as the only string returned, and is not returned -/
theorem C69_incomplete : (tr "bcdbcdaaaa").longestRepeated = .ok ["aaa".toList] ∧
    RepeatedIn (tr "bcdbcdaaaa").word "bcd".toList :=
  ⟨by decide +kernel, 0, 3, by decide +kernel, by decide +kernel, by decide +kernel, by decide +kernel⟩

/-- the full statement fails for some word -/
theorem C69_not_longest : ∃ w s L, SuffixTrie.new (.str w) = .ok s ∧ s.longestRepeated = .ok L ∧
    ∃ x ∈ L, ∃ y, RepeatedIn s.word y ∧ x.length < y.length :=
  ⟨"bcdebcdeaaaa".toList, tr "bcdebcdeaaaa", ["aaa".toList], by decide +kernel, C69_wrong.1,
    "aaa".toList, by simp, "bcde".toList, C69_wrong.2.2, by decide +kernel⟩

/-! ## C70 -/

/-- `get_lcp` is the longest common prefix -/
theorem C70_get_lcp (a b : Word) : getLcp a b <+: a ∧ getLcp a b <+: b ∧
    ∀ y, y <+: a → y <+: b → y <+: getLcp a b := getLcp_isLcp a b

example : getLcp "apple".toList "april".toList = "ap".toList := by decide +kernel

/-- `is_palindrome` tells whether the word reads the same backwards -/
theorem C70_is_palindrome (w : Word) : isPalindrome w = true ↔ w.reverse = w := isPalindrome_iff w

example : isPalindrome "abcba".toList = true ∧ isPalindrome "abca".toList = false ∧
    isPalindrome [] = true := by decide +kernel

/-! ## C73 -/

/-- there is one leaf for each suffix, the empty one included -/
theorem C73_leaves {w : Word} {s : SuffixTrie} (h : SuffixTrie.new (.str w) = .ok s) :
    s.countLeaves = (noDollar w).length + 1 := by
  obtain ⟨w', e, _, _, hs, I⟩ := suffix_inv h
  cases e
  rw [I.countLeaves, hs]
  rfl

/-- `len` counts the root, a leaf for each suffix, and the substrings after which two occurrences go
on differently: at most as many as there are suffixes -/
theorem C73_len {w : Word} {s : SuffixTrie} (h : SuffixTrie.new (.str w) = .ok s) :
    ((noDollar w).length : Int) + 2 ≤ s.len ∧ s.len ≤ 2 * (noDollar w).length + 2 := by
  obtain ⟨w', e, _, _, hs, I⟩ := suffix_inv h
  cases e
  change s.word = noDollar w at hs
  rw [← hs]
  exact I.len

example : (tr "banana").countLeaves = 7 ∧ (tr "banana").len = 11 := by decide +kernel

/-- `get_depth` is 0 -/
theorem C73_depth (s : SuffixTrie) : s.depth = 0 := by
  simp [SuffixTrie.depth, Trie.depth, RTree.depthOf]

example : (tr "banana").depth = 0 := by decide +kernel

end Extra
