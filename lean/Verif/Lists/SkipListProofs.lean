import Verif.Lists.SkipListSpec
import Verif.Lists.SliceCall
import Verif.Lists.Refine

/-! # Lemmas about skip lists (no property content) -/

set_option linter.unusedSectionVars false
set_option linter.unusedSimpArgs false
attribute [local irreducible] Extra.upd

namespace Extra
variable {N : Type} [LinearOrder N]

/-! ## The specification's levels -/

theorem towerLevel_append (A B : List (N × Nat)) (i : Nat) :
    towerLevel (A ++ B) i = towerLevel A i ++ towerLevel B i := by
  simp [towerLevel]

theorem towerLevel_cons (v : N) (k : Nat) (B : List (N × Nat)) (i : Nat) :
    towerLevel ((v, k) :: B) i = if i ≤ k then v :: towerLevel B i else towerLevel B i := by
  by_cases h : i ≤ k <;> simp [towerLevel, h]

theorem towerLevel_zero (st : List (N × Nat)) : towerLevel st 0 = towerVals st := by
  simp [towerLevel, towerVals]

theorem lt_towerHeight : ∀ (st : List (N × Nat)) (i : Nat),
    i < towerHeight st ↔ i = 0 ∨ towerLevel st i ≠ []
  | [], i => by simp [towerHeight, towerLevel]
  | (v, k) :: st, i => by
    have ih := lt_towerHeight st i
    have e : towerHeight ((v, k) :: st) = max (k + 1) (towerHeight st) := by
      simp [towerHeight]
    rw [e, towerLevel_cons]
    by_cases h : i ≤ k
    · simp [h]; left; omega
    · rw [if_neg h, ← ih]; omega

theorem towerLevel_sub {st : List (N × Nat)} {i j : Nat} (hij : i ≤ j) :
    (towerLevel st j).Sublist (towerLevel st i) := by
  refine List.Sublist.map _ ?_
  refine List.monotone_filter_right st ?_
  intro e he
  simp only [decide_eq_true_eq] at he ⊢
  omega

/-- a level of the structure: the list object, its nodes and its numbers (without `-inf`) -/
structure Lvl (N : Type) where
  l : Addr
  ns : List Addr
  xs : List N

/-- the levels `T` hold the numbers they should -/
def VOk (T : List (Lvl N)) (st : List (N × Nat)) : Prop :=
  ∀ i, T[i]?.map Lvl.xs = if i < towerHeight st then some (towerLevel st i) else none

theorem VOk.length {T : List (Lvl N)} {st : List (N × Nat)} (o : VOk T st) :
    T.length = towerHeight st := by
  rcases Nat.lt_trichotomy T.length (towerHeight st) with h | h | h
  · have := o T.length; simp [h] at this
  · exact h
  · have := o (towerHeight st); simp [h] at this

theorem VOk.get {T : List (Lvl N)} {st : List (N × Nat)} (o : VOk T st) {i : Nat} {t : Lvl N}
    (ht : T[i]? = some t) : t.xs = towerLevel st i := by
  have := o i
  rw [ht] at this
  by_cases h : i < towerHeight st
  · simpa [h] using this
  · simp [h] at this

theorem VOk.some {T : List (Lvl N)} {st : List (N × Nat)} (o : VOk T st) {i : Nat}
    (h : i = 0 ∨ towerLevel st i ≠ []) : ∃ t, T[i]? = some t := by
  have := o i
  rw [if_pos ((lt_towerHeight st i).2 h)] at this
  cases hT : T[i]? with
  | none => simp [hT] at this
  | some t => exact ⟨t, rfl⟩

theorem VOk.map {T : List (Lvl N)} {st : List (N × Nat)} (o : VOk T st) :
    T.map Lvl.xs = towerLevels st := by
  apply List.ext_getElem?
  intro i
  rw [List.getElem?_map, o i, towerLevels, List.getElem?_map]
  by_cases h : i < towerHeight st
  · simp [h]
  · simp [h]

/-- putting `v` on level `k + 1` -/
theorem VOk.up {T : List (Lvl N)} {A B : List (N × Nat)} {v : N} {k : Nat} {t : Lvl N}
    (o : VOk T (A ++ (v, k) :: B)) (hk : k + 1 < T.length)
    (ht : t.xs = towerLevel A (k + 1) ++ v :: towerLevel B (k + 1)) :
    VOk (T.set (k + 1) t) (A ++ (v, k + 1) :: B) := by
  intro i
  have oi := o i
  have h1 := lt_towerHeight (A ++ (v, k) :: B) i
  have h2 := lt_towerHeight (A ++ (v, k + 1) :: B) i
  simp only [towerLevel_append, towerLevel_cons] at h1 h2 oi ⊢
  rw [List.getElem?_set]
  by_cases hi : k + 1 = i
  · subst hi
    have h3 := h2.2 (by right; simp)
    simp [hk, h3, ht]
  · rw [if_neg hi, oi]
    by_cases hik : i ≤ k
    · have h4 : i ≤ k + 1 := by omega
      have := h1.2 (by right; simp [hik])
      have := h2.2 (by right; simp [h4])
      simp [*]
    · have h4 : ¬ i ≤ k + 1 := by omega
      simp only [if_neg hik, if_neg h4] at h1 h2 ⊢
      simp only [h1, h2]

/-- putting `v` on a new level -/
theorem VOk.grow {T : List (Lvl N)} {A B : List (N × Nat)} {v : N} {k : Nat} {t : Lvl N}
    (o : VOk T (A ++ (v, k) :: B)) (hk : k + 1 = T.length) (ht : t.xs = [v]) :
    VOk (T ++ [t]) (A ++ (v, k + 1) :: B) := by
  have hl := o.length
  intro i
  have oi := o i
  have h1 := lt_towerHeight (A ++ (v, k) :: B) i
  have h2 := lt_towerHeight (A ++ (v, k + 1) :: B) i
  simp only [towerLevel_append, towerLevel_cons] at h1 h2 oi ⊢
  by_cases hi : k + 1 = i
  · subst hi
    have h3 := h2.2 (by right; simp)
    have h4 : ¬ (k + 1 < towerHeight (A ++ (v, k) :: B)) := by omega
    have h5 : ¬ k + 1 ≤ k := by omega
    simp only [h4, if_neg h5, false_iff, not_or, not_not] at h1
    have h6 := List.append_eq_nil_iff.1 h1.2
    rw [hk, List.getElem?_concat_length, ← hk, if_pos h3]
    simp [h6.1, h6.2, ht]
  · by_cases hik : i ≤ k
    · have h4 : i ≤ k + 1 := by omega
      have := h1.2 (by right; simp [hik])
      have := h2.2 (by right; simp [h4])
      rw [List.getElem?_append_left (by omega), oi]
      clear hk hl
      simp [*]
    · have h4 : ¬ i ≤ k + 1 := by omega
      have h5 : T[i]? = none := List.getElem?_eq_none (by omega)
      rw [h5] at oi
      rw [List.getElem?_eq_none (by simp; omega)]
      simp only [if_neg hik, if_neg h4] at h1 h2 oi ⊢
      simp only [h2, ← h1]
      exact oi

/-- putting `v` on the bottom level -/
theorem VOk.base {T : List (Lvl N)} {A B : List (N × Nat)} {v : N} {t : Lvl N}
    (o : VOk T (A ++ B)) (ht : t.xs = towerLevel A 0 ++ v :: towerLevel B 0) :
    VOk (T.set 0 t) (A ++ (v, 0) :: B) := by
  have hl := o.length
  have hp : 0 < T.length := by rw [hl]; exact Nat.succ_pos _
  intro i
  have oi := o i
  have h1 := lt_towerHeight (A ++ B) i
  have h2 := lt_towerHeight (A ++ (v, 0) :: B) i
  simp only [towerLevel_append, towerLevel_cons] at h1 h2 oi ⊢
  rw [List.getElem?_set]
  by_cases hi : 0 = i
  · subst hi
    have h3 := h2.2 (by left; rfl)
    simp [hp, h3, ht]
  · rw [if_neg hi, oi]
    have h4 : ¬ i ≤ 0 := by omega
    simp only [if_neg h4] at h2 ⊢
    simp only [h1, h2]

/-- taking `v` off level `k + 1` -/
theorem VOk.down {T : List (Lvl N)} {A B : List (N × Nat)} {v : N} {k : Nat} {t : Lvl N}
    (o : VOk T (A ++ (v, k + 1) :: B))
    (ht : t.xs = towerLevel A (k + 1) ++ towerLevel B (k + 1)) (hne : t.xs ≠ []) :
    VOk (T.set (k + 1) t) (A ++ (v, k) :: B) := by
  have hl := o.length
  intro i
  have oi := o i
  have h1 := lt_towerHeight (A ++ (v, k + 1) :: B) i
  have h2 := lt_towerHeight (A ++ (v, k) :: B) i
  simp only [towerLevel_append, towerLevel_cons] at h1 h2 oi ⊢
  rw [List.getElem?_set]
  by_cases hi : k + 1 = i
  · subst hi
    have h5 : ¬ k + 1 ≤ k := by omega
    simp only [if_neg h5] at h2 ⊢
    have h3 := h2.2 (by right; rw [← ht]; exact hne)
    have h4 := h1.2 (by right; simp)
    have hk : k + 1 < T.length := by omega
    simp [hk, h3, ht]
  · rw [if_neg hi, oi]
    by_cases hik : i ≤ k
    · have h4 : i ≤ k + 1 := by omega
      have := h1.2 (by right; simp [h4])
      have := h2.2 (by right; simp [hik])
      simp [*]
    · have h4 : ¬ i ≤ k + 1 := by omega
      simp only [if_neg hik, if_neg h4] at h1 h2 ⊢
      simp only [h1, h2]

/-- dropping a level that held `v` alone -/
theorem VOk.shrink {T : List (Lvl N)} {A B : List (N × Nat)} {v : N} {k : Nat}
    (o : VOk T (A ++ (v, k + 1) :: B))
    (he : towerLevel A (k + 1) ++ towerLevel B (k + 1) = []) :
    k + 2 = T.length ∧ VOk (T.eraseIdx (k + 1)) (A ++ (v, k) :: B) := by
  have hl := o.length
  have hn : ∀ i, k + 1 ≤ i → towerLevel A i ++ towerLevel B i = [] := by
    intro i hi
    obtain ⟨h1, h2⟩ := List.append_eq_nil_iff.1 he
    have s1 := towerLevel_sub (st := A) hi
    have s2 := towerLevel_sub (st := B) hi
    rw [h1] at s1; rw [h2] at s2
    rw [List.sublist_nil.1 s1, List.sublist_nil.1 s2]; rfl
  have hk : k + 2 = T.length := by
    have a1 := (lt_towerHeight (A ++ (v, k + 1) :: B) (k + 1)).2 (by
      right; simp [towerLevel_append, towerLevel_cons])
    have a2 : ¬ (k + 2 < towerHeight (A ++ (v, k + 1) :: B)) := by
      rw [lt_towerHeight]
      have : ¬ k + 2 ≤ k + 1 := by omega
      simp only [towerLevel_append, towerLevel_cons, if_neg this, hn (k + 2) (by omega)]
      simp
    omega
  refine ⟨hk, ?_⟩
  intro i
  have oi := o i
  have h1 := lt_towerHeight (A ++ (v, k + 1) :: B) i
  have h2 := lt_towerHeight (A ++ (v, k) :: B) i
  simp only [towerLevel_append, towerLevel_cons] at h1 h2 oi ⊢
  by_cases hik : i ≤ k
  · have h4 : i ≤ k + 1 := by omega
    have := h1.2 (by right; simp [h4])
    have := h2.2 (by right; simp [hik])
    rw [List.getElem?_eraseIdx_of_lt (by omega), oi]
    simp [*]
  · rw [List.getElem?_eq_none (by rw [List.length_eraseIdx, if_pos (by omega)]; omega)]
    have := hn i (by omega)
    simp only [if_neg hik, this, ne_eq, not_true, or_false] at h2
    have h3 : ¬ (i < towerHeight (A ++ (v, k) :: B)) := by rw [h2]; omega
    simp [h3]

/-- taking `v` off the bottom level -/
theorem VOk.drop {T : List (Lvl N)} {A B : List (N × Nat)} {v : N} {t : Lvl N}
    (o : VOk T (A ++ (v, 0) :: B)) (ht : t.xs = towerLevel A 0 ++ towerLevel B 0) :
    VOk (T.set 0 t) (A ++ B) := by
  have hl := o.length
  have hp : 0 < T.length := by rw [hl]; exact Nat.succ_pos _
  intro i
  have oi := o i
  have h1 := lt_towerHeight (A ++ (v, 0) :: B) i
  have h2 := lt_towerHeight (A ++ B) i
  simp only [towerLevel_append, towerLevel_cons] at h1 h2 oi ⊢
  rw [List.getElem?_set]
  by_cases hi : 0 = i
  · subst hi
    have h3 := h2.2 (by left; rfl)
    simp [hp, h3, ht]
  · rw [if_neg hi, oi]
    have h4 : ¬ i ≤ 0 := by omega
    simp only [if_neg h4] at h1 ⊢
    simp only [h1, h2]

end Extra
