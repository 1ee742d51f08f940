import Verif.Lists.Calls
import Mathlib.Data.List.Sort

/-! # Slicing meets its specification -/

set_option linter.unusedSectionVars false
set_option linter.unusedSimpArgs false
attribute [local irreducible] Extra.upd

namespace Extra
variable {V X : Type} [PyData V] [Inhabited X]

theorem sliceIndices_eq (a b c : Option Int) (n : Nat) :
    sliceIndices a b c n =
      if c.getD 1 = 0 then .error .valueError
      else if 0 < c.getD 1 then .ok (specBound n 0 n 0 a, specBound n 0 n n b, c.getD 1)
      else .ok (specBound n (-1) (n - 1) (n - 1) a, specBound n (-1) (n - 1) (-1) b, c.getD 1) := by
  rw [sliceIndices]
  generalize c.getD 1 = st
  by_cases h0 : st = 0
  · simp [h0]
  · by_cases h1 : 0 < st
    · have h2 : ¬ st < 0 := by omega
      simp only [h0, h1, h2, if_false, if_true, Except.ok.injEq, Prod.mk.injEq, and_true]
      constructor
      · cases a with
        | none => rfl
        | some i => simp only [specBound]; split <;> omega
      · cases b with
        | none => rfl
        | some i => simp only [specBound]; split <;> omega
    · have h2 : st < 0 := by omega
      simp only [h0, h1, h2, if_false, if_true, Except.ok.injEq, Prod.mk.injEq, and_true]
      constructor
      · cases a with
        | none => rfl
        | some i => simp only [specBound]; split <;> omega
      · cases b with
        | none => rfl
        | some i => simp only [specBound]; split <;> omega

theorem specBound_mem {n : Nat} {lo hi d : Int} (hd : lo ≤ d ∧ d ≤ hi) (o : Option Int) :
    lo ≤ specBound n lo hi d o ∧ specBound n lo hi d o ≤ hi := by
  cases o with
  | none => exact hd
  | some i => simp only [specBound]; omega

theorem eq_of_sorted_mem {α : Type} {r : α → α → Prop} [Std.Asymm r] : ∀ {l₁ l₂ : List α},
    l₁.Pairwise r → l₂.Pairwise r → (∀ x, x ∈ l₁ ↔ x ∈ l₂) → l₁ = l₂
  | [], [], _, _, _ => rfl
  | [], b :: l₂, _, _, h => by have := (h b).2 (by simp); simp at this
  | a :: l₁, [], _, _, h => by have := (h a).1 (by simp); simp at this
  | a :: l₁, b :: l₂, h₁, h₂, h => by
    rw [List.pairwise_cons] at h₁ h₂
    have hirr : ∀ x, ¬ r x x := fun x hx => Std.Asymm.asymm _ _ hx hx
    have hab : a = b := by
      have h3 := (h a).1 (by simp)
      have h4 := (h b).2 (by simp)
      rcases List.mem_cons.1 h3 with h3 | h3
      · exact h3
      · rcases List.mem_cons.1 h4 with h4 | h4
        · exact h4.symm
        · exact absurd (h₁.1 b h4) (Std.Asymm.asymm _ _ (h₂.1 a h3))
    subst hab
    congr 1
    apply eq_of_sorted_mem h₁.2 h₂.2
    intro x
    have hx := h x
    simp only [List.mem_cons] at hx
    constructor
    · intro h5
      rcases hx.1 (Or.inr h5) with rfl | h6
      · exact absurd (h₁.1 x h5) (hirr x)
      · exact h6
    · intro h5
      rcases hx.2 (Or.inr h5) with rfl | h6
      · exact absurd (h₂.1 x h5) (hirr x)
      · exact h6

/-- the positions of a slice are the numbers of the corresponding `range` -/
theorem specSlicePos_pos (n : Nat) (a b : Option Int) {st : Int} (hst : 0 < st) :
    (specSlicePos n a b st).map (fun (x : Nat) => (x : Int)) =
      pyRange (specBound n 0 n 0 a) (specBound n 0 n n b) st := by
  have ha := specBound_mem (n := n) (lo := 0) (hi := n) (d := 0) (by omega) a
  have hb := specBound_mem (n := n) (lo := 0) (hi := n) (d := n) (by omega) b
  rw [specSlicePos, if_pos hst]
  refine eq_of_sorted_mem (r := (· < ·)) ?_ (pyRangeAux_sorted_pos hst _ _) ?_
  · rw [List.pairwise_map]
    refine List.Pairwise.filter _ (List.Pairwise.imp ?_ List.pairwise_lt_range)
    intro x y hxy; omega
  · intro x
    rw [mem_pyRange_pos hst]
    simp only [List.mem_map, List.mem_filter, List.mem_range, decide_eq_true_eq]
    constructor
    · rintro ⟨y, ⟨_, h1⟩, rfl⟩; exact h1
    · rintro ⟨h1, h2, h3⟩
      obtain ⟨y, rfl⟩ := Int.eq_ofNat_of_zero_le (show 0 ≤ x by omega)
      exact ⟨y, ⟨by omega, h1, h2, h3⟩, rfl⟩

theorem specSlicePos_neg (n : Nat) (a b : Option Int) {st : Int} (hst : st < 0) :
    (specSlicePos n a b st).map (fun (x : Nat) => (x : Int)) =
      pyRange (specBound n (-1) (n - 1) (n - 1) a) (specBound n (-1) (n - 1) (-1) b) st := by
  have ha := specBound_mem (n := n) (lo := -1) (hi := n - 1) (d := n - 1) (by omega) a
  have hb := specBound_mem (n := n) (lo := -1) (hi := n - 1) (d := -1) (by omega) b
  rw [specSlicePos, if_neg (by omega)]
  refine eq_of_sorted_mem (r := (· > ·)) ?_ (pyRangeAux_sorted_neg hst _ _) ?_
  · rw [List.pairwise_map]
    refine List.Pairwise.filter _ ?_
    rw [List.pairwise_reverse]
    refine List.Pairwise.imp ?_ List.pairwise_lt_range
    intro x y hxy; omega
  · intro x
    rw [mem_pyRange_neg hst]
    simp only [List.mem_map, List.mem_filter, List.mem_reverse, List.mem_range, decide_eq_true_eq]
    constructor
    · rintro ⟨y, ⟨_, h1⟩, rfl⟩; exact h1
    · rintro ⟨h1, h2, h3⟩
      obtain ⟨y, rfl⟩ := Int.eq_ofNat_of_zero_le (show 0 ≤ x by omega)
      exact ⟨y, ⟨by omega, h1, h2, h3⟩, rfl⟩

theorem specSlicePos_lt {n : Nat} {a b : Option Int} {st : Int} {x : Nat}
    (hx : x ∈ specSlicePos n a b st) : x < n := by
  rw [specSlicePos] at hx
  split at hx
  · exact List.mem_range.1 (List.mem_filter.1 hx).1
  · exact List.mem_range.1 (List.mem_reverse.1 (List.mem_filter.1 hx).1)

theorem getLast?_filterMap {α β : Type} {f : α → Option β} {L : List α}
    (hL : ∀ x ∈ L, (f x).isSome) : (L.filterMap f).getLast? = L.getLast?.bind f := by
  rcases List.eq_nil_or_concat L with rfl | ⟨L, q, rfl⟩
  · rfl
  · obtain ⟨y, hy⟩ := Option.isSome_iff_exists.1 (hL q (by simp))
    simp [List.filterMap_append, hy]

theorem getSlice_call {k : Kind} (hk : k ≠ .cll) {h : Heap V X} {l : Addr} {ns : List Addr}
    {xs : List V} (r : Rep k h l ns xs) (a b c : Option Int) :
    NewOK k h (getSlice k l a b c) (specSliceImpl xs a b c) := by
  have hg := getSlice_spec hk r a b c
  rw [sliceIndices_eq] at hg
  rw [specSliceImpl]
  generalize hst : c.getD 1 = st at *
  have hlast : ∀ L : List Int, (∀ x ∈ L, x < (xs.length : Int)) →
      L.getLast?.getD (-1) < (xs.length : Int) := by
    intro L hL
    cases hl : L.getLast? with
    | none => simp; omega
    | some m => exact hL m (List.mem_of_getLast? hl)
  by_cases h0 : st = 0
  · simp only [h0, if_true] at hg ⊢
    exact ⟨h, hg, Frame.refl _ _ _⟩
  · by_cases h1 : 0 < st
    · simp only [h0, h1, if_false, if_true, ← specSlicePos_pos _ _ _ h1] at hg ⊢
      have hlt : ∀ x ∈ (specSlicePos xs.length a b st).map (fun (x : Nat) => (x : Int)),
          x < (xs.length : Int) := by
        intro x hx
        obtain ⟨y, hy, rfl⟩ := List.mem_map.1 hx
        have := specSlicePos_lt hy; omega
      obtain ⟨h', l', ns', e, bt⟩ := hg (hlast _ hlt)
      refine ⟨h', l', ns', e, ?_⟩
      rw [pick_take _ _ hlt] at bt
      · rw [pick_filter] at bt
        have : specSlice xs a b st = (List.range xs.length).filterMap (fun x =>
            if ((0 + x : Nat) : Int) ∈ (specSlicePos xs.length a b st).map (fun (x : Nat) => (x : Int))
            then xs[x]? else none) := by
          have hmem : ∀ x : Nat, (((0 + x : Nat) : Int) ∈
              (specSlicePos xs.length a b st).map (fun (x : Nat) => (x : Int))) ↔
              x ∈ specSlicePos xs.length a b st := by
            intro x
            rw [List.mem_map]
            constructor
            · rintro ⟨y, hy, he⟩
              have : y = x := by omega
              subst this; exact hy
            · intro hx; exact ⟨x, hx, by simp⟩
          simp only [hmem]
          rw [specSlice]
          conv_lhs => rw [specSlicePos, if_pos h1]
          rw [List.filterMap_filter]
          apply List.filterMap_congr
          intro x hx
          have hm : x ∈ specSlicePos xs.length a b st ↔
              (specBound xs.length 0 xs.length 0 a ≤ x ∧
                (x : Int) < specBound xs.length 0 xs.length xs.length b ∧
                ((x : Int) - specBound xs.length 0 xs.length 0 a) % st = 0) := by
            rw [specSlicePos, if_pos h1, List.mem_filter]
            simp only [hx, true_and, decide_eq_true_eq]
          by_cases hp : x ∈ specSlicePos xs.length a b st
          · rw [if_pos hp, if_pos (by simpa using hm.1 hp)]
          · rw [if_neg hp, if_neg (by simpa using fun h => hp (hm.2 h))]
        rw [this]; exact bt
      · rw [specSlicePos_pos _ _ _ h1]; exact pyRangeAux_sorted_pos h1 _ _
    · have h2 : st < 0 := by omega
      simp only [h0, h1, if_false, ← specSlicePos_neg _ _ _ h2] at hg ⊢
      have hlt : ∀ x ∈ (specSlicePos xs.length a b st).map (fun (x : Nat) => (x : Int)),
          x < (xs.length : Int) := by
        intro x hx
        obtain ⟨y, hy, rfl⟩ := List.mem_map.1 hx
        have := specSlicePos_lt hy; omega
      have hge : ∀ x ∈ (specSlicePos xs.length a b st).map (fun (x : Nat) => (x : Int)), 0 ≤ x := by
        intro x hx
        obtain ⟨y, hy, rfl⟩ := List.mem_map.1 hx
        omega
      obtain ⟨h', l', ns', e, bt⟩ := hg (hlast _ hlt)
      refine ⟨h', l', ns', e, ?_⟩
      rw [pick_take_desc _ _ hge hlt] at bt
      · rw [specSlice, getLast?_filterMap]
        · rw [List.getLast?_map] at bt
          cases hl : (specSlicePos xs.length a b st).getLast? with
          | none => rw [hl] at bt; exact bt
          | some m => rw [hl] at bt; simpa using bt
        · intro x hx
          have := specSlicePos_lt hx
          simp [this]
      · rw [specSlicePos_neg _ _ _ h2]; exact pyRangeAux_sorted_neg h2 _ _

end Extra
