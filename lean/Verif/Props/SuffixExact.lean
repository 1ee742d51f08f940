import Verif.Trees.SuffixExact
import Verif.Props.Suffix

/-!
# C65 and C66 for all patterns

`sufEntries` and `EntryPlace` are the specification (Verif/Trees/SuffixExact.lean): the strings
`suffix$ ⟶ position` and the places where they end or part.
-/

namespace Extra

/-- a built suffix trie: its word, and the invariant of its nodes -/
private theorem patterns {w : Word} {s : SuffixTrie} (h : SuffixTrie.new (.str w) = .ok s) :
    s.word = noDollar w ∧ SuffixInv s := by
  obtain ⟨w', e, _, _, hs, I⟩ := suffix_inv h
  cases e
  exact ⟨hs, I⟩

/-- C65, exactly: a pattern without `}` is found if and only if it is empty or starts one of the entries
`suffix$ ⟶ position`. -/
theorem C65_exact {w : Word} {s : SuffixTrie} (h : SuffixTrie.new (.str w) = .ok s) {p : Word}
    (hp : '}' ∉ p) : ∃ b, s.hasSubstring (.str p) = .ok b ∧
      (b = true ↔ p = [] ∨ ∃ k ∈ sufEntries (noDollar w), p <+: k) := by
  obtain ⟨hs, I⟩ := patterns h
  rw [← hs, sufEntries_eq]
  exact I.trie.hasPrefix hp

/-- C65, exactly, for patterns with `}`: found if the `}` comes last and what stands before is a place of the
entries, `AttributeError` if more follows after such a place, and not found otherwise. -/
theorem C65_brace {w : Word} {s : SuffixTrie} (h : SuffixTrie.new (.str w) = .ok s) {q r : Word}
    (hq : '}' ∉ q) : s.hasSubstring (.str (q ++ '}' :: r)) =
      if EntryPlace (noDollar w) q then (if r = [] then .ok true else .error .attributeError) else .ok false := by
  obtain ⟨hs, I⟩ := patterns h
  rw [← hs, SuffixTrie.hasSubstring]
  rcases hasPrefix_spec s.rt I.trie.ok (q ++ '}' :: r) with ⟨hn, b, e, hb⟩ | ⟨r', l, e⟩
  · rw [if_neg (fun hE => hn ⟨r, (I.lost_iff hq).2 ⟨rfl, hE⟩⟩), e]
    congr 1
    rw [Bool.eq_false_iff, Ne, hb]
    rintro ⟨x, b', hx, hp⟩
    obtain ⟨v, hv, _⟩ := (mem_strs I.trie.ok).1 hx
    exact I.node_no_brace hv (hp.subset (by simp))
  · obtain ⟨rfl, hE⟩ := (I.lost_iff hq).1 l
    rw [if_pos hE, e]

/-- C66, exactly: a pattern without `}` is counted as the number of entries `suffix$ ⟶ position` that start
with it. -/
theorem C66_exact {w : Word} {s : SuffixTrie} (h : SuffixTrie.new (.str w) = .ok s) {p : Word}
    (hp : p ≠ []) (hb : '}' ∉ p) : s.countPattern (.str p) =
      .ok ((sufEntries (noDollar w)).filter (fun k => decide (p <+: k))).length := by
  obtain ⟨hs, I⟩ := patterns h
  rw [← hs, sufEntries_eq]
  refine I.countKeys hp ?_
  rintro ⟨r, q, v, e, _⟩
  rw [e] at hb
  simp at hb

/-- C66, exactly, for patterns with `}`: an exception if what stands before the first `}` is a place of the
entries, 0 otherwise. -/
theorem C66_brace {w : Word} {s : SuffixTrie} (h : SuffixTrie.new (.str w) = .ok s) {q r : Word}
    (hq : '}' ∉ q) : s.countPattern (.str (q ++ '}' :: r)) =
      if EntryPlace (noDollar w) q then .error (if r = [] then .assertionError else .attributeError)
      else .ok 0 := by
  obtain ⟨hs, I⟩ := patterns h
  rw [← hs]
  by_cases hE : EntryPlace s.word q
  · obtain ⟨r', l, e⟩ := follow_lost I.trie.ok ((I.lost_iff (r := r) hq).2 ⟨rfl, hE⟩)
    obtain ⟨rfl, _⟩ := (I.lost_iff hq).1 l
    rw [if_pos hE, SuffixTrie.countPattern, e]
    by_cases hr : r' = [] <;> simp [hr]
  · rw [if_neg hE, I.countKeys (by simp) (by rintro ⟨r', l⟩; exact hE ((I.lost_iff hq).1 l).2)]
    congr 1
    rw [List.length_eq_zero_iff, List.filter_eq_nil_iff]
    intro k hk
    rw [decide_eq_true_eq]
    exact fun hp => I.entry_no_brace hk (hp.subset (by simp))

/-- for patterns without `$` the entries say what the suffixes say: `C66_count_partial` from `C66_exact` -/
theorem C66_entries (u p : Word) (hp : p ≠ []) (hd : '$' ∉ p) :
    ((sufEntries u).filter (fun k => decide (p <+: k))).length = (occurrences u p).length := by
  rw [sufEntries_eq]; exact count_keys hp hd

private def trie (x : String) : SuffixTrie :=
  match SuffixTrie.new (.str x.toList) with
  | .ok s => s
  | .error _ => ⟨[], Trie.new, [], []⟩

example : (trie "aba").countPattern (.str "$".toList) = .ok 1 ∧
    (trie "aba").countPattern (.str "a$ ⟶ 2".toList) = .ok 1 ∧
    (trie "aba").countPattern (.str "a$ ⟶ 1".toList) = .ok 0 ∧
    (sufEntries "aba".toList).map String.ofList = ["aba$ ⟶ 0", "ba$ ⟶ 1", "a$ ⟶ 2", "$ ⟶ 3"] := by
  decide +kernel

example : (trie "aba").countPattern (.str "a}".toList) = .error .assertionError ∧
    (trie "aba").countPattern (.str "b}".toList) = .ok 0 ∧
    EntryPlace "aba".toList "a".toList ∧ ¬ EntryPlace "aba".toList "b".toList ∧
    (trie "aba").hasSubstring (.str "a}".toList) = .ok true ∧
    (trie "aba").hasSubstring (.str "a}b".toList) = .error .attributeError := by decide +kernel

end Extra
