import Verif.Trees.TrieCanon
import Verif.Props.Radix

/-!
# C105: the words of a trie determine its shape

"The words" are those for which `w in trie` gives `True`.  The histories are arbitrary: refused
arguments, words with a `}`, removals and `clear` may occur, and the calls go on after exceptions.
-/

namespace Extra

private def s (x : String) : StrArg := .str x.toList

theorem TrieInv.mem_iff {t : Trie} {S : List Word} (I : TrieInv t S) (w : Word) :
    t.contains (.str w) = .ok true ↔ w ∈ S := by
  rw [I.contains]
  constructor
  · intro h
    by_cases hb : braceIn S w = true
    · rw [if_pos hb] at h; cases h
    · rw [if_neg hb] at h
      simpa using h
  · intro h
    have hb : braceIn S w = false := by
      cases hb : braceIn S w with
      | false => rfl
      | true =>
        obtain ⟨r, p, rfl, _, h3⟩ := braceIn_iff.1 hb
        exact absurd (reaches_iff.2 (Or.inr ⟨_, h, r, by simp⟩)) h3
    rw [hb]
    simp [h]

/-- **C105, `Trie`.** After two histories that left the same words, the two tries have the same shape:
the same nodes with the same data, flags and children, up to the order of the children. -/
theorem C105_trie (ops ops' : List TrOp)
    (h : ∀ w, (trAfter ops).contains (.str w) = .ok true ↔ (trAfter ops').contains (.str w) = .ok true) :
    SameShape (trAfter ops).root (trAfter ops').root := by
  have I := trAfter_inv ops
  have J := trAfter_inv ops'
  simp only [I.mem_iff, J.mem_iff] at h
  refine SameShape.of_strs I.ok J.ok (by rw [I.data, J.data]) (strs_congr I.ok J.ok ?_ ?_)
  · intro q; rw [I.words, J.words, h]
  · intro q
    rw [I.nodes, J.nodes, reaches_iff, reaches_iff]
    simp only [h]

/-- two histories, one with a removal, that leave `ab`, `abc` and `b`; the tries differ in the order
of the children of the root -/
def canonA : List TrOp :=
  [.insert (s "ab"), .insert (s "abc"), .insert (s "abd"), .insert (s "b"), .remove (s "abd")]

/-- the other one -/
def canonB : List TrOp := [.insert (s "b"), .insert .other, .insert (s "abc"), .insert (s "ab")]

example : (∀ w, (trAfter canonA).contains (.str w) = .ok true ↔
      (trAfter canonB).contains (.str w) = .ok true) ∧
    trAfter canonA ≠ trAfter canonB ∧ (trAfter canonA).count = 5 := by
  refine ⟨?_, by decide +kernel, by decide +kernel⟩
  intro w
  rw [(trAfter_inv _).mem_iff, (trAfter_inv _).mem_iff]
  have e : (trSpecs canonA []).2.Perm (trSpecs canonB []).2 := by decide +kernel
  exact e.mem_iff

/-- **C105, `len` of a `Trie`** -/
theorem C105_trie_len (ops ops' : List TrOp)
    (h : ∀ w, (trAfter ops).contains (.str w) = .ok true ↔ (trAfter ops').contains (.str w) = .ok true) :
    (trAfter ops).count = (trAfter ops').count := by
  have I := trAfter_inv ops
  have J := trAfter_inv ops'
  simp only [I.mem_iff, J.mem_iff] at h
  have hp : (trAfter ops).root.strs.Perm (trAfter ops').root.strs := by
    rw [List.perm_ext_iff_of_nodup (TNode.nodup I.ok).of_map (TNode.nodup J.ok).of_map]
    rintro ⟨q, b⟩
    refine strs_congr I.ok J.ok ?_ ?_ q b
    · intro q; rw [I.words, J.words, h]
    · intro q
      rw [I.nodes, J.nodes, reaches_iff, reaches_iff]
      simp only [h]
  rw [I.count, J.count, TNode.size, TNode.size, hp.length_eq]

theorem RadixInv.mem_iff {t : Trie} {st : RadixState} (I : RadixInv t st) (w : Word) :
    t.contains (.str w) = .ok true ↔ w ∈ st.words := by
  rw [I.contains]
  constructor
  · intro h
    by_cases hb : strayIn st.nodes w = true
    · rw [if_pos hb] at h; cases h
    · rw [if_neg hb] at h
      simpa using h
  · intro h
    have hb : strayIn st.nodes w = false := by
      cases hb : strayIn st.nodes w with
      | false => rfl
      | true =>
        obtain ⟨r, p, rfl, _, h3⟩ := strayIn_iff.1 hb
        exact absurd (readable_iff.2 ⟨_, I.word_node h, r, by simp⟩) h3
    rw [hb]
    simp [h]

/-- where the nodes of a radix trie without removals are: at the words and where two words part -/
theorem compact_nodes {t : Trie} {st : RadixState} (I : RadixInv t st) (C : Compact st) (q : Word) :
    q ∈ st.nodes ↔ q = [] ∨ q ∈ st.words ∨
      ∃ a b, a ≠ b ∧ (∃ w ∈ st.words, q ++ [a] <+: w) ∧ ∃ w ∈ st.words, q ++ [b] <+: w := by
  constructor
  · intro hq
    by_cases hne : q = []
    · exact Or.inl hne
    · rcases C.1 q hq hne with h | ⟨a, b, x, y, hab, h1, h2⟩
      · exact Or.inr (Or.inl h)
      · have key : ∀ c z, q ++ c :: z ∈ st.nodes → ∃ w ∈ st.words, q ++ [c] <+: w := by
          intro c z hz
          rcases reaches_iff.1 (I.cover _ hz) with h | ⟨w, hw, hp⟩
          · simp at h
          · exact ⟨w, hw, List.IsPrefix.trans ⟨z, by simp⟩ hp⟩
        exact Or.inr (Or.inr ⟨a, b, hab, key a x h1, key b y h2⟩)
  · rintro (rfl | h | ⟨a, b, hab, ⟨w, hw, x, rfl⟩, w', hw', y, rfl⟩)
    · exact I.root
    · exact I.word_node h
    · obtain ⟨b1, h1⟩ := (I.nodes _).2 (I.word_node hw)
      obtain ⟨b2, h2⟩ := (I.nodes _).2 (I.word_node hw')
      rw [List.append_assoc] at h1 h2
      exact (I.nodes q).1 (fork_node q.length le_rfl I.ok hab h1 h2)

/-- **C105, `RadixTrie`, partial.** After two histories without `remove` that left the same words, the
two radix tries have the same shape and the same `len`.  Missing: histories with `remove`, see
`C105_radix_fails`. -/
theorem C105_radix_partial (ops ops' : List TrOp) (hr : NoRemove ops) (hr' : NoRemove ops')
    (h : ∀ w, (radAfter ops).contains (.str w) = .ok true ↔ (radAfter ops').contains (.str w) = .ok true) :
    SameShape (radAfter ops).root (radAfter ops').root ∧
      (radAfter ops).count = (radAfter ops').count := by
  have I := radAfter_inv ops
  have J := radAfter_inv ops'
  have C := compactAfter ops hr RadixInv.new ⟨by simp, Or.inr ⟨rfl, rfl⟩⟩
  have D := compactAfter ops' hr' RadixInv.new ⟨by simp, Or.inr ⟨rfl, rfl⟩⟩
  simp only [I.mem_iff, J.mem_iff] at h
  have hs : ∀ q b, (q, b) ∈ (radAfter ops).root.strs ↔ (q, b) ∈ (radAfter ops').root.strs := by
    refine strs_congr I.ok J.ok ?_ ?_
    · intro q; rw [I.words, J.words, h]
    · intro q
      rw [I.nodes, J.nodes, compact_nodes I C, compact_nodes J D]
      simp only [h]
  refine ⟨SameShape.of_strs I.ok J.ok (by rw [I.data, J.data]) hs, ?_⟩
  have hp : (radAfter ops).root.strs.Perm (radAfter ops').root.strs := by
    rw [List.perm_ext_iff_of_nodup (TNode.nodup I.ok).of_map (TNode.nodup J.ok).of_map]
    rintro ⟨q, b⟩
    exact hs q b
  rw [I.count, J.count, TNode.size, TNode.size, hp.length_eq]

example : NoRemove (canonA.take 4) ∧
    NoRemove [.insert (s "b"), .insert (s "abd"), .insert (s "abc"), .insert (s "ab")] ∧
    (∀ w, (radAfter (canonA.take 4)).contains (.str w) = .ok true ↔
      (radAfter [.insert (s "b"), .insert (s "abd"), .insert (s "abc"), .insert (s "ab")]).contains
        (.str w) = .ok true) ∧
    (radAfter (canonA.take 4)).root ≠
      (radAfter [.insert (s "b"), .insert (s "abd"), .insert (s "abc"), .insert (s "ab")]).root ∧
    (radAfter (canonA.take 4)).count = 5 := by
  refine ⟨?_, ?_, ?_, by decide +kernel, by decide +kernel⟩
  · intro op hop x
    simp only [canonA, List.take, List.mem_cons, List.not_mem_nil, or_false] at hop
    rcases hop with rfl | rfl | rfl | rfl <;> simp
  · intro op hop x
    simp only [List.mem_cons, List.not_mem_nil, or_false] at hop
    rcases hop with rfl | rfl | rfl | rfl <;> simp
  · intro w
    rw [(radAfter_inv _).mem_iff, (radAfter_inv _).mem_iff]
    have e : (radState (canonA.take 4)).words.Perm
      (radState [.insert (s "b"), .insert (s "abd"), .insert (s "abc"), .insert (s "ab")]).words := by
      decide +kernel
    exact e.mem_iff

/-- **C105 fails for a `RadixTrie` with removals**: two radix tries that hold the word `ab` only, and
`len` tells them apart. -/
theorem C105_radix_fails :
    (∀ w, (radAfter [.insert (s "ab")]).contains (.str w) = .ok true ↔
      (radAfter [.insert (s "ab"), .insert (s "ac"), .remove (s "ac")]).contains (.str w) = .ok true) ∧
    (radAfter [.insert (s "ab")]).count = 2 ∧
    (radAfter [.insert (s "ab"), .insert (s "ac"), .remove (s "ac")]).count = 3 := by
  refine ⟨?_, by decide +kernel, by decide +kernel⟩
  intro w
  rw [(radAfter_inv _).mem_iff, (radAfter_inv _).mem_iff]
  have e : (radState [.insert (s "ab")]).words =
      (radState [.insert (s "ab"), .insert (s "ac"), .remove (s "ac")]).words := by decide +kernel
  rw [e]

end Extra
