import Verif.Trees.SuffixTrie

/-!
# `is_palindrome`
-/

namespace Extra

theorem palindromeLoop_iff (w : Word) : ∀ is : List Nat,
    palindromeLoop w is = true ↔ ∀ i ∈ is, w[i]? = w[w.length - 1 - i]?
  | [] => by simp [palindromeLoop]
  | i :: is => by
    rw [palindromeLoop]
    by_cases h : w[i]? = w[w.length - 1 - i]?
    · rw [if_neg (not_not.2 h), palindromeLoop_iff w is]
      simp [h]
    · rw [if_pos h]
      simp [h]

theorem isPalindrome_iff (w : Word) : isPalindrome w = true ↔ w.reverse = w := by
  rw [isPalindrome, palindromeLoop_iff]
  constructor
  · intro h
    apply List.ext_getElem?
    intro i
    by_cases hi : i < w.length
    · rw [List.getElem?_reverse hi]
      rcases Nat.lt_or_ge i (w.length / 2) with h1 | h1
      · exact (h i (List.mem_range.2 h1)).symm
      · by_cases h2 : w.length - 1 - i < w.length / 2
        · have := h _ (List.mem_range.2 h2)
          rwa [show w.length - 1 - (w.length - 1 - i) = i by omega] at this
        · rw [show w.length - 1 - i = i by omega]
    · rw [List.getElem?_eq_none (by rw [List.length_reverse]; omega), List.getElem?_eq_none (by omega)]
  · intro h i hi
    rw [List.mem_range] at hi
    rw [← List.getElem?_reverse (by omega), h]

end Extra
