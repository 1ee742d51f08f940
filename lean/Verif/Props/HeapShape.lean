import Verif.Trees.DrawLabelsProofs
import Verif.Trees.BinTreeProofs
import Mathlib.Tactic.Ring
import Mathlib.Data.Nat.Log
import Mathlib.Order.Fin.Basic

/-!
# C124: the shape of a heap

min_heap.py and max_heap.py say that a heap is a tree of which all levels are filled, with a height of at most `log(n)`.  The
tree is the one that `_transform` makes of the list, and that `__repr__` and `__iter__` go through.  Not all levels can be
filled unless there are `2 ^ k - 1` numbers; what holds is that all but the last are, and that the last is filled from
the left.
-/

namespace Extra
variable {N : Type}

theorem lev_of_at {xs : List N} : ∀ (d : Nat) {i : Nat} {t : BTree N}, (∀ p, t.at p = xs[heapPos i p]?) →
    t.lev d = (xs.drop ((i + 1) * 2 ^ d - 1)).take (2 ^ d) := by
  intro d
  induction d with
  | zero =>
    intro i t h
    have h0 := h []
    cases t with
    | nil =>
      have : xs.length ≤ i := by simpa [heapPos, BTree.nil_at] using h0.symm
      simp [BTree.lev, List.drop_eq_nil_of_le this]
    | node l v r =>
      change some v = xs[i]? at h0
      obtain ⟨hlt, rfl⟩ := List.getElem?_eq_some_iff.1 h0.symm
      have e : (i + 1) * 2 ^ 0 - 1 = i := by simp
      rw [e, List.drop_eq_getElem_cons hlt]
      rfl
  | succ d ih =>
    intro i t h
    have hpos : 0 < 2 ^ d := Nat.two_pow_pos d
    cases t with
    | nil =>
      have h0 := h []
      have hle : xs.length ≤ i := by simpa [heapPos, BTree.nil_at] using h0.symm
      have : i + 1 ≤ (i + 1) * 2 ^ (d + 1) := Nat.le_mul_of_pos_right _ (Nat.two_pow_pos _)
      rw [BTree.lev, List.drop_eq_nil_of_le (by omega), List.take_nil]
    | node l v r =>
      have hl := ih (i := 2 * i + 1) (t := l) fun p => by
        have := h (false :: p)
        rw [BTree.at_cons] at this
        simpa [heapPos] using this
      have hr := ih (i := 2 * i + 2) (t := r) fun p => by
        have := h (true :: p)
        rw [BTree.at_cons] at this
        simpa [heapPos] using this
      have e1 : (2 * i + 1 + 1) * 2 ^ d = (i + 1) * 2 ^ (d + 1) := by ring
      have e2 : (2 * i + 2 + 1) * 2 ^ d = (i + 1) * 2 ^ (d + 1) + 2 ^ d := by ring
      have hge : 1 ≤ (i + 1) * 2 ^ (d + 1) := Nat.mul_pos (by omega) (Nat.two_pow_pos _)
      rw [BTree.lev, hl, hr, e1, e2, show 2 ^ (d + 1) = 2 ^ d + 2 ^ d by ring, List.take_add, List.drop_drop]
      congr 3
      have : (i + 1) * 2 ^ (d + 1) = (i + 1) * (2 ^ d + 2 ^ d) := by ring
      omega

theorem lev_iff : ∀ (t : BTree N) (d : Nat), t.lev d ≠ [] ↔ d < t.nlev
  | .nil, d => by simp [BTree.lev, BTree.nlev]
  | .node l v r, 0 => by simp [BTree.lev, BTree.nlev]
  | .node l v r, d + 1 => by
    have h1 := lev_iff l d
    have h2 := lev_iff r d
    rw [BTree.lev, BTree.nlev, ne_eq, List.append_eq_nil_iff]
    by_cases ha : l.lev d = [] <;> by_cases hb : r.lev d = [] <;> simp [ha, hb] at h1 h2 ⊢ <;> omega

variable [LinearOrder N] [BoundedOrder N]

/-- **C124.** The tree of a heap with the list `xs`, not empty: its level `d` has the numbers from position `2 ^ d - 1` on, of
which there are `2 ^ d` unless the list ends before; it has `log2 n + 1` levels. -/
theorem C124_levels (xs : List N) (h : xs ≠ []) :
    ∃ nodes t, transform xs = .ok nodes ∧ heapSub nodes xs.length 0 = .ok t ∧
      (∀ d, t.lev d = (xs.drop (2 ^ d - 1)).take (2 ^ d)) ∧ t.nlev = Nat.log 2 xs.length + 1 := by
  obtain ⟨t, e, ht⟩ := heapSub_spec xs xs.length 0 (List.length_pos_iff.mpr h) (by omega)
  have hl : ∀ d, t.lev d = (xs.drop (2 ^ d - 1)).take (2 ^ d) := fun d => by
    have := lev_of_at d ht
    simpa using this
  refine ⟨_, t, transform_spec h, e, hl, ?_⟩
  have hn : xs.length ≠ 0 := by simpa using h
  have key : ∀ d, d < t.nlev ↔ d < Nat.log 2 xs.length + 1 := by
    intro d
    rw [← lev_iff, hl, Nat.lt_succ_iff, Nat.le_log_iff_pow_le (b := 2) (by decide) hn]
    have hp := Nat.two_pow_pos d
    rw [ne_eq, List.take_eq_nil_iff, not_or, List.drop_eq_nil_iff]
    omega
  have h1 := key t.nlev
  have h2 := key (Nat.log 2 xs.length)
  have h3 := key (Nat.log 2 xs.length + 1)
  omega

/-- **C124, all levels but the last are filled.** -/
theorem C124_filled (xs : List N) (h : xs ≠ []) :
    ∃ nodes t, transform xs = .ok nodes ∧ heapSub nodes xs.length 0 = .ok t ∧
      (∀ d, d + 1 < t.nlev → (t.lev d).length = 2 ^ d) ∧
      ((∀ d, d < t.nlev → (t.lev d).length = 2 ^ d) ↔ ∃ k, xs.length + 1 = 2 ^ k) := by
  obtain ⟨nodes, t, h1, h2, h3, h4⟩ := C124_levels xs h
  have hn : xs.length ≠ 0 := by simpa using h
  have hlen : ∀ d, (t.lev d).length = min (2 ^ d) (xs.length - (2 ^ d - 1)) := fun d => by
    rw [h3, List.length_take, List.length_drop]
  have hlog : ∀ d, d ≤ Nat.log 2 xs.length ↔ 2 ^ d ≤ xs.length := fun d => Nat.le_log_iff_pow_le (b := 2) (by decide) hn
  refine ⟨nodes, t, h1, h2, ?_, ?_⟩
  · intro d hd
    rw [hlen]
    have := (hlog (d + 1)).1 (by omega)
    rw [pow_succ] at this
    have := Nat.two_pow_pos d
    omega
  · constructor
    · intro hall
      have := hall (Nat.log 2 xs.length) (by omega)
      rw [hlen] at this
      have hup : xs.length < 2 ^ (Nat.log 2 xs.length + 1) := Nat.lt_pow_succ_log_self (by decide) _
      refine ⟨Nat.log 2 xs.length + 1, ?_⟩
      rw [pow_succ] at hup ⊢
      have := Nat.two_pow_pos (Nat.log 2 xs.length)
      omega
    · rintro ⟨k, hk⟩ d hd
      rw [hlen]
      have h5 := (hlog d).1 (by omega)
      have h6 : d < k := by
        by_contra hcon
        have := Nat.pow_le_pow_right (n := 2) (by decide) (Nat.not_lt.1 hcon)
        omega
      have h7 := Nat.pow_le_pow_right (n := 2) (by decide) (Nat.succ_le_of_lt h6)
      rw [Nat.succ_eq_add_one, pow_succ] at h7
      have := Nat.two_pow_pos d
      omega

/-- Six numbers: three levels, the last not filled. -/
example : ∃ nodes t, transform ([1, 2, 3, 4, 5, 0] : List (Fin 6)) = .ok nodes ∧ heapSub nodes 6 0 = .ok t ∧
    t.lev 0 = [1] ∧ t.lev 1 = [2, 3] ∧ t.lev 2 = [4, 5, 0] ∧ t.nlev = 3 ∧ ¬∃ k, 6 + 1 = 2 ^ k := by
  obtain ⟨nodes, t, h1, h2, h3, h4⟩ := C124_levels ([1, 2, 3, 4, 5, 0] : List (Fin 6)) (by simp)
  refine ⟨nodes, t, h1, h2, h3 0, h3 1, h3 2, by rw [h4]; decide +kernel, ?_⟩
  rintro ⟨k, hk⟩
  match k with
  | 0 | 1 | 2 => simp at hk
  | k + 3 =>
    have := Nat.two_pow_pos k
    rw [pow_add] at hk
    omega

end Extra
