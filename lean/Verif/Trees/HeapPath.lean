import Verif.Trees.HeapPathSpec
import Verif.Trees.BinHeapProofs
import Mathlib.Data.Nat.Log
import Mathlib.Data.List.Perm.Subperm
import Mathlib.Data.List.Nodup

/-!
# Changes lie on one way up
-/

set_option linter.unusedSectionVars false

namespace Extra
variable {N : Type} [LinearOrder N] [BoundedOrder N]

theorem self_mem_wayUp (i : Nat) : i ∈ wayUp i := by
  rw [wayUp]; exact List.mem_cons_self

theorem wayUp_parent {i : Nat} (h : i ≠ 0) {j : Nat} (hj : j ∈ wayUp ((i - 1) / 2)) : j ∈ wayUp i := by
  rw [wayUp, dif_neg h]
  exact List.mem_cons_of_mem _ hj

/-- a place on the way up leads to the places on its own way up -/
theorem wayUp_trans : ∀ (n : Nat) {i j k : Nat}, i ≤ n → j ∈ wayUp i → k ∈ wayUp j → k ∈ wayUp i := by
  intro n
  induction n with
  | zero =>
    intro i j k hi hj hk
    have : i = 0 := by omega
    subst this
    rw [wayUp] at hj
    simp at hj
    subst hj
    exact hk
  | succ n ih =>
    intro i j k hi hj hk
    by_cases h0 : i = 0
    · subst h0
      rw [wayUp] at hj
      simp at hj
      subst hj
      exact hk
    · rw [wayUp, dif_neg h0] at hj
      rcases List.mem_cons.1 hj with rfl | hj
      · exact hk
      · exact wayUp_parent h0 (ih (by omega) hj hk)

theorem wayUp_length : ∀ (n : Nat) {i : Nat}, i ≤ n → (wayUp i).length = Nat.log 2 (i + 1) + 1 := by
  intro n
  induction n with
  | zero =>
    intro i hi
    have : i = 0 := by omega
    subst this
    rw [wayUp]; simp
  | succ n ih =>
    intro i hi
    by_cases h0 : i = 0
    · subst h0; rw [wayUp]; simp
    · rw [wayUp, dif_neg h0, List.length_cons, ih (by omega), Nat.log_of_one_lt_of_le (by omega) (by omega : 2 ≤ i + 1)]
      have : (i + 1) / 2 = (i - 1) / 2 + 1 := by omega
      rw [this]

theorem bhSwap_other (xs : List N) {i j k : Nat} (a b : N) (hi : k ≠ i) (hj : k ≠ j) :
    (bhSwap xs i j a b)[k]? = xs[k]? := by
  rw [bhSwap, List.getElem?_set_ne (Ne.symm hj), List.getElem?_set_ne (Ne.symm hi)]

theorem siftUp_path (m : Bool) : ∀ (fuel : Nat) {xs ys : List N} {i : Nat}, siftUp m fuel xs i = .ok ys →
    ∀ k, k ∉ wayUp i → ys[k]? = xs[k]?
  | fuel, xs, ys, i, h, k, hk => by
    unfold siftUp at h
    by_cases h0 : i = 0
    · rw [if_pos h0] at h; cases h; rfl
    · rw [if_neg h0] at h
      cases fuel with
      | zero => cases h
      | succ fuel =>
        simp only [bind, Except.bind] at h
        cases h1 : bhGet xs i with
        | error e => rw [h1] at h; cases h
        | ok a =>
          rw [h1] at h
          cases h2 : bhGet xs ((i - 1) / 2) with
          | error e => rw [h2] at h; cases h
          | ok b =>
            rw [h2] at h
            simp only [] at h
            split at h
            · have hk' : k ∉ wayUp ((i - 1) / 2) := fun h => hk (wayUp_parent h0 h)
              rw [siftUp_path m fuel h k hk']
              refine bhSwap_other _ _ _ ?_ ?_
              · rintro rfl; exact hk' (self_mem_wayUp _)
              · rintro rfl; exact hk (self_mem_wayUp _)
            · cases h; rfl

theorem pickChild_cases {m : Bool} {xs : List N} {last i c : Nat} (h : pickChild m xs last i = .ok (some c)) :
    (c - 1) / 2 = i ∧ c ≠ 0 ∧ c < last := by
  simp only [pickChild] at h
  split at h
  · split at h
    · cases h
    · cases h; omega
  · cases h1 : bhGet xs (i * 2 + 1) with
    | error e => rw [h1] at h; cases h
    | ok a =>
      cases h2 : bhGet xs (i * 2 + 2) with
      | error e => rw [h1, h2] at h; cases h
      | ok b =>
        rw [h1, h2] at h
        simp only [bind, Except.bind] at h
        split at h <;> cases h <;> split <;> omega

theorem siftDown_path (m : Bool) (last : Nat) : ∀ (fuel : Nat) {xs ys : List N} {i : Nat},
    siftDown m last fuel xs i = .ok ys → ∃ q, i ∈ wayUp q ∧ (q = i ∨ q < last) ∧
      ∀ k, (k ∉ wayUp q ∨ k < i) → ys[k]? = xs[k]?
  | fuel, xs, ys, i, h => by
    have stay : ys = xs → ∃ q, i ∈ wayUp q ∧ (q = i ∨ q < last) ∧
        ∀ k, (k ∉ wayUp q ∨ k < i) → ys[k]? = xs[k]? :=
      fun e => ⟨i, self_mem_wayUp i, Or.inl rfl, fun k _ => by rw [e]⟩
    unfold siftDown at h
    split at h
    · cases fuel with
      | zero => cases h
      | succ fuel =>
        simp only [bind, Except.bind] at h
        cases h1 : bhGet xs i with
        | error e => rw [h1] at h; cases h
        | ok a =>
          rw [h1] at h
          cases h2 : pickChild m xs last i with
          | error e => rw [h2] at h; cases h
          | ok o =>
            rw [h2] at h
            cases o with
            | none => cases h; exact stay rfl
            | some c =>
              simp only [] at h
              obtain ⟨p1, p2, p3⟩ := pickChild_cases h2
              cases h3 : bhGet xs c with
              | error e => rw [h3] at h; cases h
              | ok b =>
                rw [h3] at h
                simp only [] at h
                split at h
                · obtain ⟨q, q1, q2, q3⟩ := siftDown_path m last fuel h
                  have hi : i ∈ wayUp q := by
                    refine wayUp_trans q le_rfl q1 (wayUp_parent p2 ?_)
                    rw [p1]; exact self_mem_wayUp i
                  refine ⟨q, hi, Or.inr (by omega), ?_⟩
                  intro k hk
                  have hic : i < c := by omega
                  rw [q3 k (hk.imp id (by omega))]
                  refine bhSwap_other _ _ _ ?_ ?_
                  · rintro rfl
                    rcases hk with hk | hk
                    · exact hk hi
                    · omega
                  · rintro rfl
                    rcases hk with hk | hk
                    · exact hk q1
                    · omega
                · cases h; exact stay rfl
    · cases h; exact stay rfl

theorem siftDown_length (m : Bool) (last : Nat) : ∀ (fuel : Nat) {xs ys : List N} {i : Nat},
    siftDown m last fuel xs i = .ok ys → ys.length = xs.length
  | fuel, xs, ys, i, h => by
    unfold siftDown at h
    split at h
    · cases fuel with
      | zero => cases h
      | succ fuel =>
        simp only [bind, Except.bind] at h
        cases h1 : bhGet xs i with
        | error e => rw [h1] at h; cases h
        | ok a =>
          rw [h1] at h
          cases h2 : pickChild m xs last i with
          | error e => rw [h2] at h; cases h
          | ok o =>
            rw [h2] at h
            cases o with
            | none => cases h; rfl
            | some c =>
              simp only [] at h
              cases h3 : bhGet xs c with
              | error e => rw [h3] at h; cases h
              | ok b =>
                rw [h3] at h
                simp only [] at h
                split at h
                · rw [siftDown_length m last fuel h]; simp [bhSwap]
                · cases h; rfl
    · cases h; rfl

end Extra
