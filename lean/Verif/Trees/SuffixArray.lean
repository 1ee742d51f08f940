import Verif.Trees.SuffixRefine
import Mathlib.Data.List.Sort
import Mathlib.Data.List.Pairwise

/-!
# The suffix array
-/

set_option linter.unusedSimpArgs false

namespace Extra

/-- what `SuffixTrie` sorts by -/
def sortKey (w : Word) (i : Nat) : Word := if i = w.length then ['$'] else w.drop i

theorem SuffixInv.array_eq {s : SuffixTrie} (I : SuffixInv s) :
    s.array = (List.range (s.word.length + 1)).map (fun i => (i, sortKey s.word i)) := by
  rw [I.array, List.range_succ, List.map_append]
  congr 1
  · apply List.map_congr_left
    intro i hi
    rw [List.mem_range] at hi
    rw [sortKey, if_neg (by omega)]
  · simp [sortKey]

theorem SuffixInv.array_perm {s : SuffixTrie} (I : SuffixInv s) :
    s.toSuffixArray.Perm (List.range (s.word.length + 1)) := by
  rw [SuffixTrie.toSuffixArray]
  refine ((List.perm_insertionSort _ _).map _).trans ?_
  rw [I.array_eq, List.map_map]
  have : (Prod.fst ∘ fun i => (i, sortKey s.word i)) = id := rfl
  rw [this, List.map_id]

theorem dollar_sortKey {s : SuffixTrie} (I : SuffixInv s) {i j : Nat} (hi : i ≤ s.word.length)
    (hj : j ≤ s.word.length) (h : sortKey s.word i = sortKey s.word j) : i = j := by
  have hd : ∀ {k : Nat}, s.word.drop k ≠ ['$'] := by
    intro k hk
    apply I.dollar
    apply List.mem_of_mem_drop (i := k)
    rw [hk]; simp
  unfold sortKey at h
  by_cases h1 : i = s.word.length <;> by_cases h2 : j = s.word.length
  · omega
  · rw [if_pos h1, if_neg h2] at h
    exact absurd h.symm hd
  · rw [if_neg h1, if_pos h2] at h
    exact absurd h hd
  · rw [if_neg h1, if_neg h2] at h
    have := congrArg List.length h
    rw [List.length_drop, List.length_drop] at this
    omega

theorem SuffixInv.array_sorted {s : SuffixTrie} (I : SuffixInv s) :
    s.toSuffixArray.Pairwise (fun i j => sortKey s.word i < sortKey s.word j) := by
  rw [SuffixTrie.toSuffixArray, List.pairwise_map]
  have hs : (s.array.insertionSort (fun a b => a.2 ≤ b.2)).Pairwise (fun a b => a.2 ≤ b.2) := by
    have t : Std.Total (fun a b : Nat × Word => a.2 ≤ b.2) := ⟨fun a b => List.le_total a.2 b.2⟩
    have tr : IsTrans (Nat × Word) (fun a b => a.2 ≤ b.2) := ⟨fun a b c h1 h2 => List.le_trans h1 h2⟩
    exact List.pairwise_insertionSort (fun a b : Nat × Word => a.2 ≤ b.2) s.array
  have hp := List.perm_insertionSort (fun a b : Nat × Word => a.2 ≤ b.2) s.array
  have hm : ∀ a ∈ s.array.insertionSort (fun a b => a.2 ≤ b.2),
      a.1 ≤ s.word.length ∧ a.2 = sortKey s.word a.1 := by
    intro a ha
    rw [hp.mem_iff, I.array_eq, List.mem_map] at ha
    obtain ⟨i, hi, rfl⟩ := ha
    rw [List.mem_range] at hi
    exact ⟨by simp only; omega, rfl⟩
  have hn : (s.array.insertionSort (fun a b => a.2 ≤ b.2)).Nodup := by
    rw [hp.nodup_iff, I.array_eq]
    exact List.nodup_range.map (fun a b h => congrArg Prod.fst h)
  refine List.Pairwise.imp_of_mem ?_ (hs.and hn)
  rintro a b ha hb ⟨h1, h2⟩
  obtain ⟨a1, a2⟩ := hm a ha
  obtain ⟨b1, b2⟩ := hm b hb
  rw [← a2, ← b2]
  by_contra hlt
  have h := List.le_antisymm h1 (List.not_lt.1 hlt)
  rw [a2, b2] at h
  have := dollar_sortKey I a1 b1 h
  apply h2
  rw [Prod.ext_iff]
  exact ⟨this, by rw [a2, b2, this]⟩

theorem dollar_lt {c : Char} {r : Word} (h : '$' < c) : ['$'] < c :: r := List.Lex.rel h

/-- the order is that of the suffixes iff no character of the word comes before `$` -/
theorem SuffixInv.array_iff {s : SuffixTrie} (I : SuffixInv s) :
    s.toSuffixArray.Pairwise (fun i j => s.word.drop i < s.word.drop j) ↔ ∀ c ∈ s.word, '$' < c := by
  have hs := I.array_sorted
  have hp := I.array_perm
  constructor
  · intro hd c hc
    by_contra hlt
    have hcd : c < '$' := by
      by_contra hle
      have := Char.le_antisymm (Char.not_lt.1 hlt) (Char.not_lt.1 hle)
      subst this
      exact I.dollar hc
    obtain ⟨k, hk, e⟩ := List.mem_iff_getElem.1 hc
    have h2 : s.toSuffixArray.Pairwise (fun i j =>
        (sortKey s.word i < sortKey s.word j ∧ s.word.drop i < s.word.drop j) ∨
        (sortKey s.word j < sortKey s.word i ∧ s.word.drop j < s.word.drop i)) :=
      (hs.and hd).imp (fun h => Or.inl h)
    have sym : Std.Symm (fun i j =>
        (sortKey s.word i < sortKey s.word j ∧ s.word.drop i < s.word.drop j) ∨
        (sortKey s.word j < sortKey s.word i ∧ s.word.drop j < s.word.drop i)) := ⟨fun i j h => h.symm⟩
    have := List.Pairwise.forall h2 (hp.mem_iff.2 (List.mem_range.2 (by omega : k < s.word.length + 1)))
      (hp.mem_iff.2 (List.mem_range.2 (by omega : s.word.length < s.word.length + 1))) (by omega)
    rcases this with ⟨_, h⟩ | ⟨h, _⟩
    · rw [List.drop_length] at h
      exact absurd h (List.not_lt_nil _)
    · rw [sortKey, if_pos rfl, sortKey, if_neg (by omega), List.drop_eq_getElem_cons hk, e] at h
      have h' : c :: s.word.drop (k + 1) < ['$'] := List.Lex.rel hcd
      exact absurd (List.lt_trans h h') (List.lt_irrefl _)
  · intro hall
    refine List.Pairwise.imp_of_mem ?_ hs
    intro i j hi hj h
    rw [hp.mem_iff, List.mem_range] at hi hj
    have hlt : ∀ {k : Nat}, k < s.word.length → ['$'] < s.word.drop k := by
      intro k hk
      rw [List.drop_eq_getElem_cons hk]
      exact dollar_lt (hall _ (List.getElem_mem _))
    unfold sortKey at h
    by_cases h1 : i = s.word.length <;> by_cases h2 : j = s.word.length
    · rw [if_pos h1, if_pos h2] at h; exact absurd h (List.lt_irrefl _)
    · subst h1
      rw [List.drop_length, List.drop_eq_getElem_cons (by omega : j < s.word.length)]
      exact List.nil_lt_cons _ _
    · rw [if_neg h1, if_pos h2] at h
      exact absurd (List.lt_trans h (hlt (k := i) (by omega))) (List.lt_irrefl _)
    · rw [if_neg h1, if_neg h2] at h
      exact h

end Extra
