import Verif.Trees.SearchMean
import Verif.Trees.BstProofs
import Mathlib.Data.List.Permutation
import Mathlib.NumberTheory.Harmonic.Bounds

/-! # The mean number of nodes a search looks at (no property content) -/

set_option linter.unusedSectionVars false
set_option linter.unusedSimpArgs false

namespace Extra
variable {N X : Type} [LinearOrder N]

/-! ## The tree that insertions make -/

/-- insert one after the other -/
def bstOf (ps : List (N × X)) (t : BTree (N × X)) : BTree (N × X) :=
  ps.foldl (fun t v => (t.insertNode v).1) t

theorem bstOf_node : ∀ (ps : List (N × X)) (l : BTree (N × X)) (w : N × X) (r : BTree (N × X)),
    (∀ v ∈ ps, v.1 ≠ w.1) →
    bstOf ps (.node l w r) =
      .node (bstOf (ps.filter (fun v => v.1 < w.1)) l) w (bstOf (ps.filter (fun v => w.1 < v.1)) r)
  | [], _, _, _, _ => rfl
  | v :: ps, l, w, r, h => by
    have hv := h v List.mem_cons_self
    have ht := fun u hu => h u (List.mem_cons_of_mem _ hu)
    have e : bstOf (v :: ps) (.node l w r) = bstOf ps ((BTree.node l w r).insertNode v).1 := rfl
    rw [e, insertNode_node, if_neg hv]
    by_cases hlt : v.1 < w.1
    · rw [if_pos hlt, bstOf_node ps _ _ _ ht]
      simp [hlt, not_lt.2 hlt.le, bstOf]
    · have hgt := lt_of_le_of_ne (not_lt.1 hlt) (Ne.symm hv)
      rw [if_neg hlt, bstOf_node ps _ _ _ ht]
      simp [hlt, hgt, bstOf]

theorem bstOf_cons (v : N × X) (ps : List (N × X)) (h : ∀ u ∈ ps, u.1 ≠ v.1) :
    bstOf (v :: ps) .nil =
      .node (bstOf (ps.filter (fun u => u.1 < v.1)) .nil) v
        (bstOf (ps.filter (fun u => v.1 < u.1)) .nil) :=
  bstOf_node ps .nil v .nil h

theorem visits_node (x : N) (l : BTree (N × X)) (w : N × X) (r : BTree (N × X)) :
    (BTree.node l w r).visits x =
      1 + if x = w.1 then 0 else if x < w.1 then l.visits x else r.visits x := by
  rw [BTree.visits, search_node]
  by_cases h1 : x = w.1
  · simp [h1]
  · by_cases h2 : x < w.1
    · cases l <;> simp [h1, h2, BTree.visits]; omega
    · cases r <;> simp [h1, h2, BTree.visits]; omega

/-- the nodes looked at: those that come before all others between them and the number looked for -/
def firsts (x : N) (p : List N) : List N := p.filter (fun y => p.find? (span x y) = some y)

theorem firsts_cons {x y : N} {p : List N} (hy : y ∉ p) :
    firsts x (y :: p) =
      y :: (if x = y then [] else if x < y then firsts x (p.filter (· < y))
        else firsts x (p.filter (y < ·))) := by
  have hyy : span x y y = true := by
    rcases le_total x y with h | h <;> simp [span, h]
  rw [firsts, List.filter_cons_of_pos (by simp [hyy])]
  congr 1
  -- a number whose span does not hold `y` is judged by the numbers on its side
  have side : ∀ (q : N → Bool) (z : N), (∀ u, span x z u = true → q u = true) →
      p.find? (span x z) = (p.filter q).find? (span x z) := by
    intro q z hq
    rw [List.find?_filter]
    congr 1
    funext u
    by_cases hu : span x z u = true
    · simp [hu, hq u hu]
    · simp [hu]
  by_cases h1 : x = y
  · subst h1
    rw [if_pos rfl, List.filter_eq_nil_iff]
    intro z hz
    have hx : span x z x = true := by
      rcases le_total x z with h | h <;> simp [span, h]
    rw [List.find?_cons_of_pos hx]
    simp only [decide_eq_true_eq, Option.some.injEq]
    rintro rfl
    exact hy hz
  · rw [if_neg h1]
    by_cases h2 : x < y
    · rw [if_pos h2, firsts, List.filter_filter]
      apply List.filter_congr
      intro z hz
      have hzy : z ≠ y := by rintro rfl; exact hy hz
      by_cases h3 : z < y
      · have hs : span x z y = false := by
          simp [span, h2, h3]
        rw [List.find?_cons_of_neg (by simp [hs]), side (· < y) z]
        · simp [h3]
        · intro u hu
          simp only [span, decide_eq_true_eq] at hu ⊢
          rcases hu with hu | hu
          · exact hu.2.trans_lt h3
          · exact hu.2.trans_lt h2
      · have h4 := lt_of_le_of_ne (not_lt.1 h3) (Ne.symm hzy)
        have hs : span x z y = true := by simp [span, h2.le, h4.le]
        rw [List.find?_cons_of_pos hs]
        simp [h3, hzy.symm]
    · have h2' := lt_of_le_of_ne (not_lt.1 h2) (Ne.symm h1)
      rw [if_neg h2, firsts, List.filter_filter]
      apply List.filter_congr
      intro z hz
      have hzy : z ≠ y := by rintro rfl; exact hy hz
      by_cases h3 : y < z
      · have hs : span x z y = false := by
          simp [span, h2', h3]
        rw [List.find?_cons_of_neg (by simp [hs]), side (y < ·) z]
        · simp [h3]
        · intro u hu
          simp only [span, decide_eq_true_eq] at hu ⊢
          rcases hu with hu | hu
          · exact h2'.trans_le hu.1
          · exact h3.trans_le hu.1
      · have h4 := lt_of_le_of_ne (not_lt.1 h3) hzy
        have hs : span x z y = true := by simp [span, h2'.le, h4.le]
        rw [List.find?_cons_of_pos hs]
        simp [h3, hzy.symm]

theorem visits_bstOf (x : N) : ∀ (n : Nat) (ps : List (N × X)), ps.length ≤ n →
    (ps.map Prod.fst).Nodup → (bstOf ps .nil).visits x = (firsts x (ps.map Prod.fst)).length
  | _, [], _, _ => rfl
  | 0, v :: ps, hn, _ => by simp at hn
  | n + 1, v :: ps, hn, hd => by
    obtain ⟨h1, h2⟩ := List.nodup_cons.1 hd
    have hne : ∀ u ∈ ps, u.1 ≠ v.1 := by
      intro u hu e
      exact h1 (e ▸ List.mem_map_of_mem hu)
    have hlen : ∀ q : N × X → Bool, (ps.filter q).length ≤ n := by
      intro q
      have := List.length_filter_le q ps
      simp at hn
      omega
    have hnd : ∀ q : N × X → Bool, ((ps.filter q).map Prod.fst).Nodup :=
      fun q => h2.sublist (List.filter_sublist.map _)
    rw [bstOf_cons v ps hne, visits_node, List.map_cons, firsts_cons h1,
      visits_bstOf x n _ (hlen _) (hnd _), visits_bstOf x n _ (hlen _) (hnd _)]
    have f1 : (ps.filter (fun u => u.1 < v.1)).map Prod.fst =
        (ps.map Prod.fst).filter (· < v.1) := by
      rw [List.filter_map]; rfl
    have f2 : (ps.filter (fun u => v.1 < u.1)).map Prod.fst =
        (ps.map Prod.fst).filter (v.1 < ·) := by
      rw [List.filter_map]; rfl
    rw [f1, f2, List.length_cons]
    by_cases h3 : x = v.1
    · simp [h3]
    · by_cases h4 : x < v.1
      · simp [h3, h4]; omega
      · simp [h3, h4]; omega

/-! ## Each of the numbers between comes first equally often -/

theorem count_first_swap {xs : List N} (hd : xs.Nodup) {S : N → Bool} {y z : N} (hy : y ∈ xs)
    (hz : z ∈ xs) (sy : S y = true) (sz : S z = true) :
    xs.permutations.countP (fun p => p.find? S = some y) =
      xs.permutations.countP (fun p => p.find? S = some z) := by
  let e := Equiv.swap y z
  have hS : ∀ u, S (e u) = S u := by
    intro u
    by_cases h1 : u = y
    · subst h1; simp [e, sy, sz]
    · by_cases h2 : u = z
      · subst h2; simp [e, sy, sz]
      · simp [e, Equiv.swap_apply_of_ne_of_ne h1 h2]
  have hxs : (xs.map e).Perm xs := by
    rw [List.perm_ext_iff_of_nodup (hd.map e.injective) hd]
    intro u
    rw [List.mem_map]
    have key : ∀ u, u ∈ xs → e u ∈ xs := by
      intro u hu
      by_cases h1 : u = y
      · subst h1; simpa [e] using hz
      · by_cases h2 : u = z
        · subst h2; simpa [e] using hy
        · simpa [e, Equiv.swap_apply_of_ne_of_ne h1 h2] using hu
    constructor
    · rintro ⟨w, hw, rfl⟩; exact key w hw
    · intro hu; exact ⟨e u, key u hu, by simp [e]⟩
  have hperm : (xs.permutations.map (List.map e)).Perm xs.permutations := by
    have nd := List.nodup_permutations xs hd
    rw [List.perm_ext_iff_of_nodup (nd.map (List.map_injective_iff.2 e.injective)) nd]
    intro p
    rw [List.mem_map, List.mem_permutations]
    constructor
    · rintro ⟨q, hq, rfl⟩
      exact ((List.mem_permutations.1 hq).map e).trans hxs
    · intro hp
      refine ⟨p.map e, List.mem_permutations.2 ((hp.map e).trans hxs), ?_⟩
      rw [List.map_map]
      have : (⇑e ∘ ⇑e) = id := by funext u; simp [e]
      rw [this, List.map_id]
  rw [← hperm.countP_eq, List.countP_map]
  apply List.countP_congr
  intro p _
  have hf : (p.map e).find? S = (p.find? S).map e := by
    rw [List.find?_map]
    congr 2
    funext u
    exact hS u
  simp only [Function.comp_apply, hf, decide_eq_true_eq]
  cases p.find? S with
  | none => simp
  | some u =>
    simp only [Option.map_some, Option.some.injEq]
    constructor
    · intro h
      have := congrArg e h
      simpa [e] using this
    · rintro rfl; simp [e]

theorem sum_countP {α β : Type} [DecidableEq β] (g : α → Option β) : ∀ (L : List α) (ys : List β),
    ys.Nodup → (∀ a ∈ L, ∃ b ∈ ys, g a = some b) →
    (ys.map (fun y => L.countP (fun a => g a = some y))).sum = L.length
  | [], ys, _, _ => by simp
  | a :: L, ys, hd, h => by
    have ih := sum_countP g L ys hd (fun x hx => h x (List.mem_cons_of_mem _ hx))
    obtain ⟨b, hb, e⟩ := h a List.mem_cons_self
    simp only [List.countP_cons, e, decide_eq_true_eq, Option.some.injEq, List.length_cons]
    rw [List.sum_map_add, ih]
    congr 1
    have : ∀ ys : List β, (ys.map (fun y => if b = y then 1 else 0)).sum = ys.count b := by
      intro ys
      induction ys with
      | nil => rfl
      | cons y ys ih =>
        rw [List.map_cons, List.sum_cons, ih, List.count_cons]
        by_cases hby : b = y
        · simp [hby]; omega
        · simp [hby, Ne.symm hby]
    rw [this, List.count_eq_one_of_mem hd hb]

theorem count_first {xs : List N} (hd : xs.Nodup) {S : N → Bool} {y : N} (hy : y ∈ xs)
    (sy : S y = true) :
    xs.permutations.countP (fun p => p.find? S = some y) * (xs.filter S).length =
      xs.permutations.length := by
  have h1 := sum_countP (fun p : List N => p.find? S) xs.permutations (xs.filter S)
    (hd.filter _) (by
      intro p hp
      have hp := List.mem_permutations.1 hp
      cases hf : p.find? S with
      | none =>
        rw [List.find?_eq_none] at hf
        exact absurd sy (hf y (hp.mem_iff.2 hy))
      | some b =>
        exact ⟨b, List.mem_filter.2 ⟨hp.mem_iff.1 (List.mem_of_find?_eq_some hf),
          List.find?_some hf⟩, rfl⟩)
  rw [← h1]
  have h2 : (xs.filter S).map (fun z => xs.permutations.countP (fun p => p.find? S = some z)) =
      (xs.filter S).map (fun _ => xs.permutations.countP (fun p => p.find? S = some y)) := by
    apply List.map_congr_left
    intro z hz
    obtain ⟨h3, h4⟩ := List.mem_filter.1 hz
    exact count_first_swap hd h3 hy h4 sy
  rw [h2]
  simp [Nat.mul_comm]

theorem sum_firsts (x : N) (xs : List N) : ∀ L : List (List N), (∀ p ∈ L, p.Perm xs) →
    (L.map (fun p => ((firsts x p).length : ℚ))).sum =
      (xs.map (fun y => ((L.countP (fun p => p.find? (span x y) = some y) : Nat) : ℚ))).sum
  | [], _ => by simp
  | p :: L, h => by
    rw [List.map_cons, List.sum_cons, sum_firsts x xs L (fun q hq => h q (List.mem_cons_of_mem _ hq))]
    simp only [List.countP_cons, Nat.cast_add]
    rw [List.sum_map_add, add_comm]
    congr 1
    have hp := h p List.mem_cons_self
    have e1 : (firsts x p).length =
        (xs.filter (fun y => p.find? (span x y) = some y)).length :=
      (hp.filter _).length_eq
    rw [e1]
    clear e1 h hp
    induction xs with
    | nil => simp
    | cons y ys ih =>
      rw [List.map_cons, List.sum_cons, ← ih]
      by_cases hy : p.find? (span x y) = some y
      · simp [hy, add_comm]
      · simp [hy]

/-- over all orders the nodes looked at are on average the sum of the reciprocals -/
theorem mean_firsts (x : N) {xs : List N} (hd : xs.Nodup) :
    meanOver xs.permutations (fun p => ((firsts x p).length : ℚ)) =
      (xs.map (fun y => ((xs.filter (span x y)).length : ℚ)⁻¹)).sum := by
  rw [meanOver, sum_firsts x xs _ (fun p hp => List.mem_permutations.1 hp), div_eq_mul_inv,
    ← List.sum_map_mul_right]
  congr 1
  apply List.map_congr_left
  intro y hy
  have hyy : span x y y = true := by
    rcases le_total x y with h | h <;> simp [span, h]
  have h1 := count_first hd hy hyy
  have h2 : (xs.permutations.length : ℚ) ≠ 0 := by
    rw [List.length_permutations]
    exact_mod_cast Nat.factorial_ne_zero _
  rw [← h1] at h2 ⊢
  push_cast at h2 ⊢
  have h3 := left_ne_zero_of_mul h2
  have h4 := right_ne_zero_of_mul h2
  field_simp

/-! ## The sum in closed form -/

/-- counting from the end of a list ordered by `g` -/
theorem sum_ranks (g : N → N → Bool) (f : Nat → ℚ) (hg : ∀ a, g a a = true) : ∀ S : List N,
    S.Pairwise (fun a b => g a b = true ∧ g b a = false) →
    (S.map (fun y => f (S.filter (g y)).length)).sum = ∑ i ∈ Finset.range S.length, f (i + 1)
  | [], _ => by simp
  | y :: S, h => by
    obtain ⟨h1, h2⟩ := List.pairwise_cons.1 h
    have ih := sum_ranks g f hg S h2
    rw [List.length_cons, Finset.sum_range_succ, ← ih, List.map_cons, List.sum_cons, add_comm]
    congr 1
    · congr 1
      apply List.map_congr_left
      intro z hz
      rw [List.filter_cons_of_neg (by simp [(h1 z hz).2])]
    · have : (y :: S).filter (g y) = y :: S := by
        rw [List.filter_eq_self]
        intro z hz
        rcases List.mem_cons.1 hz with rfl | hz
        · exact hg _
        · exact (h1 z hz).1
      rw [this, List.length_cons]

theorem sum_inv_harmonic (n b : Nat) (hb : b = 0 ∨ b = 1) :
    ∑ i ∈ Finset.range n, (((i + 1 + b : Nat) : ℚ))⁻¹ = harmonic (n + b) - b := by
  induction n with
  | zero => rcases hb with rfl | rfl <;> simp [harmonic]
  | succ n ih =>
    rw [Finset.sum_range_succ, ih, Nat.add_right_comm, harmonic_succ]
    ring

theorem sorted_perm (L : List N) (hd : L.Nodup) :
    ∃ S : List N, S.Perm L ∧ S.Pairwise (· < ·) := by
  refine ⟨L.mergeSort (· ≤ ·), List.mergeSort_perm _ _, ?_⟩
  have h1 := List.pairwise_mergeSort (le := fun a b : N => decide (a ≤ b))
    (fun a b c h1 h2 => by simp at *; exact h1.trans h2)
    (fun a b => by simpa using le_total a b) L
  have h2 : (L.mergeSort (· ≤ ·)).Nodup := (List.mergeSort_perm _ _).nodup_iff.2 hd
  exact (h1.and h2).imp (fun ⟨a, b⟩ => lt_of_le_of_ne (by simpa using a) b)

/-- the mean in closed form: `H (k + b) + H (m + b) - b` with `k` numbers below, `m` above, and
`b = 1` if the number is one of them -/
theorem sum_span (x : N) {xs : List N} (hd : xs.Nodup) :
    (xs.map (fun y => ((xs.filter (span x y)).length : ℚ)⁻¹)).sum =
      harmonic ((xs.filter (· < x)).length + xs.count x) +
      harmonic ((xs.filter (x < ·)).length + xs.count x) - xs.count x := by
  obtain ⟨A, pA, sA⟩ := sorted_perm _ (hd.filter (· < x))
  obtain ⟨C, pC, sC⟩ := sorted_perm _ (hd.filter (x < ·))
  have hB : ∃ B : List N, (∀ z ∈ B, z = x) ∧ B.length = xs.count x ∧ xs.Perm (A ++ (B ++ C)) := by
    refine ⟨xs.filter (· = x), by simp, ?_, ?_⟩
    · rw [List.count_eq_countP, List.countP_eq_length_filter]
      congr 1
    · have h1 := List.filter_append_perm (· < x) xs
      refine h1.symm.trans (List.Perm.append pA.symm ?_)
      have h2 := List.filter_append_perm (· = x) (xs.filter (fun z => !decide (z < x)))
      refine h2.symm.trans ?_
      rw [List.filter_filter, List.filter_filter]
      refine List.Perm.append (List.Perm.of_eq ?_) ((List.Perm.of_eq ?_).trans pC.symm)
      · apply List.filter_congr
        intro z _
        by_cases h : z = x <;> simp [h]
      · apply List.filter_congr
        intro z _
        rcases lt_trichotomy z x with h | h | h
        · simp [h, h.ne, h.le]
        · simp [h]
        · simp [h, h.ne', h.le]
  obtain ⟨B, hBx, hBl, hp⟩ := hB
  have hA : ∀ z ∈ A, z < x := fun z hz => by simpa using (List.mem_filter.1 (pA.mem_iff.1 hz)).2
  have hC : ∀ z ∈ C, x < z := fun z hz => by simpa using (List.mem_filter.1 (pC.mem_iff.1 hz)).2
  have hb : xs.count x = 0 ∨ xs.count x = 1 := by
    have := List.nodup_iff_count_le_one.1 hd x
    omega
  rw [← pA.length_eq, ← pC.length_eq, ← hBl]
  rw [← hBl] at hb
  have e : ∀ y, (xs.filter (span x y)).length =
      (A.filter (span x y)).length + ((B.filter (span x y)).length + (C.filter (span x y)).length) := by
    intro y
    rw [(hp.filter _).length_eq, List.filter_append, List.filter_append, List.length_append,
      List.length_append]
  have fB : ∀ y, B.filter (span x y) = B := by
    intro y
    rw [List.filter_eq_self]
    intro z hz
    rw [hBx z hz]
    rcases le_total x y with h | h <;> simp [span, h]
  have fA1 : ∀ y, y < x → A.filter (span x y) = A.filter (fun z => y ≤ z) := by
    intro y hy
    apply List.filter_congr
    intro z hz
    have := hA z hz
    simp [span, not_le.2 this, this.le]
  have fA2 : ∀ y, x ≤ y → A.filter (span x y) = [] := by
    intro y hy
    rw [List.filter_eq_nil_iff]
    intro z hz
    have := hA z hz
    simp [span, not_le.2 this]
    exact fun h => absurd (this.trans_le hy) (not_lt.2 h)
  have fC1 : ∀ y, x < y → C.filter (span x y) = C.filter (fun z => z ≤ y) := by
    intro y hy
    apply List.filter_congr
    intro z hz
    have := hC z hz
    simp [span, not_le.2 this, this.le]
  have fC2 : ∀ y, y ≤ x → C.filter (span x y) = [] := by
    intro y hy
    rw [List.filter_eq_nil_iff]
    intro z hz
    have := hC z hz
    simp [span, not_le.2 this]
    exact fun _ => hy.trans_lt this
  rw [(hp.map _).sum_eq, List.map_append, List.map_append, List.sum_append, List.sum_append]
  have g1 : (A.map (fun y => ((xs.filter (span x y)).length : ℚ)⁻¹)).sum =
      harmonic (A.length + B.length) - B.length := by
    rw [← sum_inv_harmonic _ _ hb,
      ← sum_ranks (fun y z => decide (y ≤ z)) (fun i => (((i + B.length : Nat) : ℚ))⁻¹)
        (by simp) A (sA.imp (fun h => by simp [h, h.le]))]
    congr 1
    apply List.map_congr_left
    intro y hy
    have := hA y hy
    rw [e y, fA1 y this, fB, fC2 y this.le]
    simp
  have g2 : (B.map (fun y => ((xs.filter (span x y)).length : ℚ)⁻¹)).sum = B.length := by
    have : ∀ y ∈ B, ((xs.filter (span x y)).length : ℚ)⁻¹ = 1 := by
      intro y hy
      have hyx := hBx y hy
      subst hyx
      rw [e y, fA2 y le_rfl, fB, fC2 y le_rfl]
      have : B.length = 1 := by
        have := List.length_pos_of_mem hy
        omega
      simp [this]
    rw [List.map_congr_left this]
    simp
  have g3 : (C.map (fun y => ((xs.filter (span x y)).length : ℚ)⁻¹)).sum =
      harmonic (C.length + B.length) - B.length := by
    have hr := sum_ranks (fun y z => decide (z ≤ y)) (fun i => (((i + B.length : Nat) : ℚ))⁻¹)
        (by simp) C.reverse (by
          rw [List.pairwise_reverse]
          exact sC.imp (fun h => by simp [h, h.le]))
    rw [← sum_inv_harmonic _ _ hb, ← List.length_reverse (as := C), ← hr,
      ← ((List.reverse_perm C).map _).sum_eq]
    congr 1
    apply List.map_congr_left
    intro y hy
    have := hC y (List.mem_reverse.1 hy)
    rw [e y, fA2 y this.le, fB, fC1 y this, ((List.reverse_perm C).filter _).length_eq]
    congr 2
    simp; omega
  rw [g1, g2, g3]
  ring

theorem sum_span' (x : N) {xs : List N} (hd : xs.Nodup) :
    (xs.map (fun y => ((xs.filter (span x y)).length : ℚ)⁻¹)).sum =
      harmonic ((xs.filter (· < x)).length + if x ∈ xs then 1 else 0) +
      harmonic ((xs.filter (x < ·)).length + if x ∈ xs then 1 else 0) - if x ∈ xs then 1 else 0 := by
  have hc : xs.count x = if x ∈ xs then 1 else 0 := by
    split
    · exact List.count_eq_one_of_mem hd ‹_›
    · exact List.count_eq_zero.2 ‹_›
  rw [sum_span x hd, hc]
  split <;> simp

theorem harmonic_mono : Monotone harmonic := by
  refine monotone_nat_of_le_succ fun n => ?_
  rw [harmonic_succ]
  have : (0 : ℚ) ≤ ((n + 1 : ℕ) : ℚ)⁻¹ := by positivity
  linarith

theorem sum_span_le (x : N) {xs : List N} (hd : xs.Nodup) :
    (xs.map (fun y => ((xs.filter (span x y)).length : ℚ)⁻¹)).sum ≤ 2 * harmonic xs.length := by
  rw [sum_span' x hd]
  have k : ∀ q : N → Bool, q x = false →
      (xs.filter q).length + (if x ∈ xs then 1 else 0) ≤ xs.length := by
    intro q hq
    have h1 := List.length_eq_length_filter_add (l := xs) q
    split
    · have : 0 < (xs.filter fun a => !q a).length :=
        List.length_pos_of_mem (List.mem_filter.2 ⟨‹x ∈ xs›, by simp [hq]⟩)
      omega
    · omega
  have h1 := harmonic_mono (k (fun y => decide (y < x)) (by simp))
  have h2 := harmonic_mono (k (fun y => decide (x < y)) (by simp))
  have h3 : (0 : ℚ) ≤ if x ∈ xs then 1 else 0 := by split <;> norm_num
  linarith

end Extra
