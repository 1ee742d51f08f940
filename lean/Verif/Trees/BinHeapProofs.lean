import Verif.Trees.BinHeapSpec
import Mathlib.Data.List.Perm.Basic
import Batteries.Data.List.Lemmas

/-! # Helper lemmas for the binary heaps -/

set_option linter.unusedSectionVars false
set_option linter.unusedSimpArgs false

namespace Extra
variable {N : Type} [LinearOrder N] [BoundedOrder N]

/-! ## Order -/

theorem inOrder_total (b : Bool) (x y : N) : inOrder b x y ∨ inOrder b y x := by
  cases b <;> simp only [inOrder, if_true, Bool.false_eq_true, if_false]
  · exact le_total y x
  · exact le_total x y

theorem inOrder_trans {b : Bool} {x y z : N} (h1 : inOrder b x y) (h2 : inOrder b y z) :
    inOrder b x z := by
  cases b <;> simp only [inOrder, if_true, Bool.false_eq_true, if_false] at *
  · exact h2.trans h1
  · exact h1.trans h2

theorem inOrder_refl (b : Bool) (x : N) : inOrder b x x := by cases b <;> simp [inOrder]

theorem bhWrong_iff (b : Bool) (p c : N) : bhWrong b p c = true ↔ ¬ inOrder b p c := by
  cases b <;> simp [bhWrong, inOrder]

/-- the item at a position, `⊥` outside -/
def hv (xs : List N) (i : Nat) : N := xs.getD i ⊥

theorem hv_eq {xs : List N} {i : Nat} (h : i < xs.length) : hv xs i = xs[i] := by
  simp [hv, h]

theorem bhGet_eq {xs : List N} {i : Nat} (h : i < xs.length) : bhGet xs i = .ok (hv xs i) := by
  simp [bhGet, hv, h]

theorem hv_set {xs : List N} {i : Nat} (h : i < xs.length) (a : N) (j : Nat) :
    hv (xs.set i a) j = if j = i then a else hv xs j := by
  simp only [hv, List.getD_eq_getElem?_getD, List.getElem?_set]
  by_cases hj : i = j
  · subst hj; simp [h]
  · rw [if_neg hj, if_neg (fun e => hj e.symm)]

theorem length_bhSwap (xs : List N) (i j : Nat) (a b : N) :
    (bhSwap xs i j a b).length = xs.length := by simp [bhSwap]

theorem hv_swap {xs : List N} {i j : Nat} (hi : i < xs.length) (hj : j < xs.length) (a b : N)
    (k : Nat) : hv (bhSwap xs i j a b) k = if k = j then a else if k = i then b else hv xs k := by
  rw [bhSwap, hv_set (by simpa using hj), hv_set hi]

theorem swap_perm {xs : List N} {i j : Nat} (hi : i < xs.length) (hj : j < xs.length) :
    (bhSwap xs i j (hv xs i) (hv xs j)).Perm xs := by
  rw [bhSwap, hv_eq hi, hv_eq hj]
  exact List.set_set_perm hi hj

theorem heapOrdered_iff {b : Bool} {xs : List N} :
    HeapOrdered b xs ↔ ∀ i < xs.length, i ≠ 0 → inOrder b (hv xs ((i - 1) / 2)) (hv xs i) := by
  constructor
  · intro h i hi h0
    rw [hv_eq hi, hv_eq (by omega)]
    exact h i hi h0
  · intro h i hi h0
    have := h i hi h0
    rwa [hv_eq hi, hv_eq (by omega)] at this

/-! ## Inserting -/

/-- ordered, except that the item at `k` may be out of order with its parent -/
def UpOK (b : Bool) (xs : List N) (k : Nat) : Prop :=
  (∀ i < xs.length, i ≠ 0 → i ≠ k → inOrder b (hv xs ((i - 1) / 2)) (hv xs i)) ∧
  (∀ i < xs.length, i ≠ 0 → (i - 1) / 2 = k → k ≠ 0 → inOrder b (hv xs ((k - 1) / 2)) (hv xs i))

theorem siftUp_spec (b : Bool) : ∀ (fuel : Nat) (xs : List N) (k : Nat), k ≤ fuel → k < xs.length →
    ∃ ys, siftUp b fuel xs k = .ok ys ∧ ys.Perm xs ∧ (UpOK b xs k → HeapOrdered b ys)
  | fuel, xs, 0, _, _ => by
    refine ⟨xs, by unfold siftUp; simp, List.Perm.refl _, fun h => heapOrdered_iff.2 ?_⟩
    exact fun i hi h0 => h.1 i hi h0 h0
  | 0, _, k + 1, hf, _ => by omega
  | fuel + 1, xs, k + 1, hf, hk => by
    have hp : k / 2 < xs.length := by omega
    have hstep : siftUp b (fuel + 1) xs (k + 1) =
        if bhWrong b (hv xs (k / 2)) (hv xs (k + 1)) then
          siftUp b fuel (bhSwap xs (k / 2) (k + 1) (hv xs (k / 2)) (hv xs (k + 1))) (k / 2)
        else .ok xs := by
      rw [siftUp]
      rw [if_neg (Nat.succ_ne_zero k)]
      simp only [Nat.add_sub_cancel, bhGet_eq hk, bhGet_eq hp]
      rfl
    by_cases hw : bhWrong b (hv xs (k / 2)) (hv xs (k + 1)) = true
    · rw [if_pos hw] at hstep
      have hno := (bhWrong_iff _ _ _).1 hw
      have hck : inOrder b (hv xs (k + 1)) (hv xs (k / 2)) :=
        (inOrder_total b _ _).resolve_right hno
      obtain ⟨ys, e, p, o⟩ := siftUp_spec b fuel
        (bhSwap xs (k / 2) (k + 1) (hv xs (k / 2)) (hv xs (k + 1))) (k / 2) (by omega)
        (by rw [length_bhSwap]; exact hp)
      refine ⟨ys, by rw [hstep, e], p.trans (swap_perm hp hk), fun hu => o ?_⟩
      obtain ⟨h1, h2⟩ := hu
      constructor
      · intro i hi hi0 hik
        rw [length_bhSwap] at hi
        rw [hv_swap hp hk, hv_swap hp hk]
        by_cases c1 : i = k + 1
        · subst c1
          rw [if_pos rfl, if_neg (by omega), if_pos (by omega)]
          exact hck
        · rw [if_neg c1, if_neg hik]
          by_cases c2 : (i - 1) / 2 = k + 1
          · rw [if_pos c2]
            have := h2 i hi hi0 c2 (by omega)
            simpa using this
          · rw [if_neg c2]
            have h3 := h1 i hi hi0 c1
            by_cases c3 : (i - 1) / 2 = k / 2
            · rw [if_pos c3]
              rw [c3] at h3
              exact inOrder_trans hck h3
            · rw [if_neg c3]; exact h3
      · intro i hi hi0 hik hk0
        rw [length_bhSwap] at hi
        rw [hv_swap hp hk, hv_swap hp hk, if_neg (by omega), if_neg (by omega)]
        have h3 := h1 (k / 2) hp hk0 (by omega)
        by_cases c1 : i = k + 1
        · rw [if_pos c1]; exact h3
        · rw [if_neg c1, if_neg (by omega)]
          have h4 := h1 i hi hi0 c1
          rw [hik] at h4
          exact inOrder_trans h3 h4
    · rw [if_neg hw] at hstep
      refine ⟨xs, hstep, List.Perm.refl _, fun hu => heapOrdered_iff.2 ?_⟩
      have hyes : inOrder b (hv xs (k / 2)) (hv xs (k + 1)) := by
        by_contra hc; exact hw ((bhWrong_iff _ _ _).2 hc)
      intro i hi hi0
      by_cases c1 : i = k + 1
      · subst c1; simpa using hyes
      · exact hu.1 i hi hi0 c1

theorem hv_append_left {xs ys : List N} {i : Nat} (h : i < xs.length) :
    hv (xs ++ ys) i = hv xs i := by
  simp [hv, h, List.getElem?_append_left]

theorem bhInsert_num (b : Bool) (xs : List N) (v : N) :
    ∃ ys, bhInsert b xs (.num v) = .ok ys ∧ ys.Perm (v :: xs) ∧
      (HeapOrdered b xs → HeapOrdered b ys) := by
  obtain ⟨ys, e, p, o⟩ := siftUp_spec b (xs.length + 1) (xs ++ [v]) xs.length (by omega) (by simp)
  refine ⟨ys, e, p.trans (List.perm_append_singleton v xs), fun h => o ⟨?_, ?_⟩⟩
  · intro i hi hi0 hne
    simp only [List.length_append, List.length_singleton] at hi
    rw [hv_append_left (by omega), hv_append_left (by omega)]
    exact heapOrdered_iff.1 h i (by omega) hi0
  · intro i hi _ hp _
    simp only [List.length_append, List.length_singleton] at hi
    omega

/-! ## Removing -/

/-- ordered, except that the item at `k` may be out of order with its children -/
def DownOK (b : Bool) (xs : List N) (k : Nat) : Prop :=
  (∀ i < xs.length, i ≠ 0 → (i - 1) / 2 ≠ k → inOrder b (hv xs ((i - 1) / 2)) (hv xs i)) ∧
  (∀ i < xs.length, i ≠ 0 → (i - 1) / 2 = k → k ≠ 0 → inOrder b (hv xs ((k - 1) / 2)) (hv xs i))

theorem bhGet_concat {xs : List N} {i : Nat} (s : N) (h : i < xs.length) :
    bhGet (xs ++ [s]) i = .ok (hv xs i) := by
  rw [bhGet_eq (by simp; omega), hv_append_left h]

theorem bhSwap_concat {xs : List N} {i j : Nat} (s a b : N) (hi : i < xs.length)
    (hj : j < xs.length) : bhSwap (xs ++ [s]) i j a b = bhSwap xs i j a b ++ [s] := by
  simp only [bhSwap]
  rw [List.set_append_left _ _ hi, List.set_append_left _ _ (by simpa using hj)]

/-- the child chosen: none if there is none, otherwise one that goes before its sibling -/
theorem pickChild_spec (b : Bool) (xs : List N) (s : N) (k : Nat) :
    (pickChild b (xs ++ [s]) xs.length k = .ok none ∧ xs.length ≤ 2 * k + 1) ∨
    ∃ c, pickChild b (xs ++ [s]) xs.length k = .ok (some c) ∧ c < xs.length ∧ (c - 1) / 2 = k ∧
      c ≠ 0 ∧ ∀ i < xs.length, i ≠ 0 → (i - 1) / 2 = k → inOrder b (hv xs c) (hv xs i) := by
  by_cases h1 : k * 2 + 2 ≥ xs.length
  · by_cases h2 : k * 2 + 1 ≥ xs.length
    · left; exact ⟨by simp [pickChild, h1, h2], by omega⟩
    · right
      refine ⟨k * 2 + 1, by simp [pickChild, h1, h2], by omega, by omega, by omega, ?_⟩
      intro i hi h0 hp
      have : i = k * 2 + 1 := by omega
      rw [this]; exact inOrder_refl _ _
  · right
    have hl : k * 2 + 1 < xs.length := by omega
    have hr : k * 2 + 2 < xs.length := by omega
    have e : pickChild b (xs ++ [s]) xs.length k = .ok (some
        (if (if b then decide (hv xs (k * 2 + 1) < hv xs (k * 2 + 2))
          else decide (hv xs (k * 2 + 1) > hv xs (k * 2 + 2))) then k * 2 + 1 else k * 2 + 2)) := by
      simp only [pickChild, if_neg h1, bhGet_concat s hl, bhGet_concat s hr, bind, Except.bind]
      cases b <;> simp
    rw [e]
    by_cases hc : (if b then decide (hv xs (k * 2 + 1) < hv xs (k * 2 + 2))
          else decide (hv xs (k * 2 + 1) > hv xs (k * 2 + 2))) = true
    · rw [if_pos hc]
      refine ⟨_, rfl, hl, by omega, by omega, ?_⟩
      intro i hi h0 hp
      have : i = k * 2 + 1 ∨ i = k * 2 + 2 := by omega
      rcases this with rfl | rfl
      · exact inOrder_refl _ _
      · cases b <;> simp [inOrder] at hc ⊢ <;> exact hc.le
    · rw [if_neg hc]
      refine ⟨_, rfl, hr, by omega, by omega, ?_⟩
      intro i hi h0 hp
      have : i = k * 2 + 1 ∨ i = k * 2 + 2 := by omega
      rcases this with rfl | rfl
      · cases b <;> simp [inOrder] at hc ⊢ <;> exact hc
      · exact inOrder_refl _ _

theorem siftDown_spec (b : Bool) (s : N) : ∀ (fuel : Nat) (xs : List N) (k : Nat),
    xs.length ≤ fuel + k →
    ∃ ys, siftDown b xs.length fuel (xs ++ [s]) k = .ok (ys ++ [s]) ∧ ys.Perm xs ∧
      (DownOK b xs k → HeapOrdered b ys) := by
  intro fuel
  induction fuel with
  | zero =>
    intro xs k hf
    refine ⟨xs, ?_, List.Perm.refl _, fun h => heapOrdered_iff.2 ?_⟩
    · rw [siftDown, if_neg (by omega)]
    · exact fun i hi h0 => h.1 i hi h0 (by omega)
  | succ fuel ih =>
    intro xs k hf
    by_cases hk : k < xs.length
    · have hstep : siftDown b xs.length (fuel + 1) (xs ++ [s]) k =
          (do
            match ← pickChild b (xs ++ [s]) xs.length k with
            | none => .ok (xs ++ [s])
            | some c => do
              let child ← bhGet (xs ++ [s]) c
              if bhWrong b (hv xs k) child then
                siftDown b xs.length fuel (bhSwap (xs ++ [s]) k c (hv xs k) child) c
              else .ok (xs ++ [s])) := by
        rw [siftDown, if_pos hk]
        simp only [bhGet_concat s hk]
        rfl
      rcases pickChild_spec b xs s k with ⟨e, hlen⟩ | ⟨c, e, hc, hpar, hc0, hbest⟩
      · refine ⟨xs, by rw [hstep, e]; rfl, List.Perm.refl _, fun h => heapOrdered_iff.2 ?_⟩
        exact fun i hi h0 => h.1 i hi h0 (by omega)
      · have hck : k < c := by omega
        have hstep2 : siftDown b xs.length (fuel + 1) (xs ++ [s]) k =
            if bhWrong b (hv xs k) (hv xs c) then
              siftDown b xs.length fuel (bhSwap xs k c (hv xs k) (hv xs c) ++ [s]) c
            else .ok (xs ++ [s]) := by
          rw [hstep, e]
          simp only [bind, Except.bind, bhGet_concat s hc, bhSwap_concat s _ _ hk hc]
        by_cases hw : bhWrong b (hv xs k) (hv xs c) = true
        · rw [if_pos hw] at hstep2
          have hno := (bhWrong_iff _ _ _).1 hw
          have hord : inOrder b (hv xs c) (hv xs k) := (inOrder_total b _ _).resolve_right hno
          obtain ⟨ys, e2, p, o⟩ := ih (bhSwap xs k c (hv xs k) (hv xs c)) c
            (by rw [length_bhSwap]; omega)
          rw [length_bhSwap] at e2
          refine ⟨ys, by rw [hstep2, e2], p.trans (swap_perm hk hc), fun hd => o ?_⟩
          obtain ⟨h1, h2⟩ := hd
          constructor
          · intro i hi hi0 hpi
            rw [length_bhSwap] at hi
            rw [hv_swap hk hc, hv_swap hk hc, if_neg hpi]
            by_cases c1 : (i - 1) / 2 = k
            · rw [if_pos c1]
              by_cases c2 : i = c
              · rw [if_pos c2]; exact hord
              · rw [if_neg c2, if_neg (by omega)]; exact hbest i hi hi0 c1
            · rw [if_neg c1, if_neg (by rintro rfl; exact c1 hpar)]
              by_cases c3 : i = k
              · rw [if_pos c3]
                subst c3
                exact h2 c hc hc0 hpar hi0
              · rw [if_neg c3]; exact h1 i hi hi0 c1
          · intro i hi hi0 hpi _
            rw [length_bhSwap] at hi
            rw [hv_swap hk hc, hv_swap hk hc, hpar, if_neg (by omega), if_pos rfl, if_neg (by omega),
              if_neg (by omega)]
            have := h1 i hi hi0 (by omega)
            rwa [hpi] at this
        · rw [if_neg hw] at hstep2
          refine ⟨xs, hstep2, List.Perm.refl _, fun hd => heapOrdered_iff.2 ?_⟩
          have hyes : inOrder b (hv xs k) (hv xs c) := by
            by_contra hx; exact hw ((bhWrong_iff _ _ _).2 hx)
          intro i hi hi0
          by_cases c1 : (i - 1) / 2 = k
          · rw [c1]; exact inOrder_trans hyes (hbest i hi hi0 c1)
          · exact hd.1 i hi hi0 c1
    · refine ⟨xs, ?_, List.Perm.refl _, fun h => heapOrdered_iff.2 ?_⟩
      · rw [siftDown, if_neg hk]
      · exact fun i hi h0 => h.1 i hi h0 (by omega)

/-- if the item at `k` already goes before everything below it, nothing moves -/
theorem siftDown_stays {b : Bool} {s : N} {fuel : Nat} {xs : List N} {k : Nat}
    (hf : k < xs.length → fuel ≠ 0)
    (h : ∀ i < xs.length, i ≠ 0 → (i - 1) / 2 = k → inOrder b (hv xs k) (hv xs i)) :
    siftDown b xs.length fuel (xs ++ [s]) k = .ok (xs ++ [s]) := by
  by_cases hk : k < xs.length
  · obtain ⟨fuel, rfl⟩ := Nat.exists_eq_succ_of_ne_zero (hf hk)
    rw [siftDown, if_pos hk]
    simp only [bhGet_concat s hk]
    rcases pickChild_spec b xs s k with ⟨e, hlen⟩ | ⟨c, e, hc, hpar, hc0, hbest⟩
    · rw [e]; rfl
    · rw [e]
      simp only [bind, Except.bind, bhGet_concat s hc]
      have : bhWrong b (hv xs k) (hv xs c) = false := by
        cases hw : bhWrong b (hv xs k) (hv xs c) with
        | false => rfl
        | true => exact absurd (h c hc hc0 hpar) ((bhWrong_iff _ _ _).1 hw)
      rw [this]; rfl
  · cases fuel <;> rw [siftDown, if_neg hk]

/-- the array `__rebalance` starts from: the last item is in the place of the removed one -/
theorem bhRemove_start (b : Bool) {init : List N} {last v : N} (h : v ∈ init ++ [last]) :
    bhRemove b (init ++ [last]) (.num v) =
      (siftDown b init.length (init.length + 1)
        (init.set ((init ++ [last]).idxOf v) last ++ [if b then ⊥ else ⊤])
        ((init ++ [last]).idxOf v)).map (fun ws => (ws.dropLast, false)) := by
  have hi : (init ++ [last]).idxOf v < (init ++ [last]).length := List.idxOf_lt_length_iff.2 h
  simp only [List.length_append, List.length_singleton] at hi
  have hlast : bhGet (init ++ [last]) init.length = .ok last := by simp [bhGet]
  simp only [bhRemove, List.append_eq_nil_iff, List.cons_ne_self, and_false, if_false, h, if_true,
    List.length_append, List.length_singleton, Nat.add_sub_cancel, hlast, bind, Except.bind,
    reduceCtorEq]
  have hz : ((bhSwap (init ++ [last]) init.length ((init ++ [last]).idxOf v) last v).set init.length
      (if b = true then ⊥ else ⊤)) = init.set ((init ++ [last]).idxOf v) last ++
        [if b = true then ⊥ else ⊤] := by
    rw [bhSwap, List.set_append_right _ _ (le_refl _), Nat.sub_self, List.set_cons_zero]
    by_cases hd : (init ++ [last]).idxOf v < init.length
    · rw [List.set_append_left _ _ hd, List.set_append_right _ _ (by simp)]
      simp
    · have hd' : (init ++ [last]).idxOf v = init.length := by omega
      rw [hd', List.set_append_right _ _ (le_refl _), Nat.sub_self, List.set_cons_zero,
        List.set_append_right _ _ (le_refl _), Nat.sub_self, List.set_cons_zero,
        List.set_eq_of_length_le (le_refl _)]
  rw [hz]
  cases siftDown b init.length (init.length + 1) (init.set ((init ++ [last]).idxOf v) last ++
        [if b = true then ⊥ else ⊤]) ((init ++ [last]).idxOf v) <;> rfl

theorem set_idxOf_perm {init : List N} {last v : N} (h : v ∈ init ++ [last]) :
    (init.set ((init ++ [last]).idxOf v) last).Perm ((init ++ [last]).erase v) := by
  by_cases hv : v ∈ init
  · have hi : init.idxOf v < init.length := List.idxOf_lt_length_iff.2 hv
    rw [List.idxOf_append_of_mem hv, List.erase_append_left _ hv, ← List.eraseIdx_idxOf_eq_erase]
    exact (List.set_perm_cons_eraseIdx hi last).trans (List.perm_append_singleton _ _).symm
  · have hl : v = last := by simpa [hv] using h
    subst hl
    rw [List.idxOf_append_of_notMem hv, List.erase_append_right _ hv]
    simp [List.set_eq_of_length_le]

theorem bhRemove_mem (b : Bool) {xs : List N} {v : N} (h : v ∈ xs) :
    ∃ ys, bhRemove b xs (.num v) = .ok (ys, false) ∧ ys.Perm (xs.erase v) := by
  rcases List.eq_nil_or_concat xs with rfl | ⟨init, last, rfl⟩
  · simp at h
  · rw [List.concat_eq_append] at h ⊢
    rw [bhRemove_start b h]
    obtain ⟨ys, e, p, _⟩ := siftDown_spec b (if b then ⊥ else ⊤ : N) (init.length + 1)
      (init.set ((init ++ [last]).idxOf v) last) ((init ++ [last]).idxOf v) (by simp; omega)
    rw [List.length_set] at e
    rw [e]
    exact ⟨ys, by simp [Except.map], p.trans (set_idxOf_perm h)⟩

theorem bhRemove_not_mem (b : Bool) {xs : List N} {v : N} (h : v ∉ xs) :
    bhRemove b xs (.num v) = .ok (xs, true) := by
  simp [bhRemove, h]

/-- Removing `v` keeps the order exactly if the last item, which takes its place, goes after the
parent of that place. -/
theorem bhRemove_ordered_iff (b : Bool) {init : List N} {last v : N} (h : v ∈ init ++ [last])
    (ho : HeapOrdered b (init ++ [last])) :
    ∃ ys, bhRemove b (init ++ [last]) (.num v) = .ok (ys, false) ∧
      (HeapOrdered b ys ↔ ((init ++ [last]).idxOf v = 0 ∨ (init ++ [last]).idxOf v = init.length ∨
        inOrder b (hv init (((init ++ [last]).idxOf v - 1) / 2)) last)) := by
  rw [bhRemove_start b h]
  have hi : (init ++ [last]).idxOf v < (init ++ [last]).length := List.idxOf_lt_length_iff.2 h
  simp only [List.length_append, List.length_singleton] at hi
  have hvd : hv (init ++ [last]) ((init ++ [last]).idxOf v) = v := by
    rw [hv_eq (by simpa using hi)]; exact List.getElem_idxOf _
  generalize (init ++ [last]).idxOf v = d at hi hvd ⊢
  have ho' := heapOrdered_iff.1 ho
  simp only [List.length_append, List.length_singleton] at ho'
  by_cases hd : d < init.length
  swap
  · have hdl : d = init.length := by omega
    subst hdl
    rw [List.set_eq_of_length_le (le_refl _), siftDown, if_neg (by omega)]
    refine ⟨init, by simp [Except.map], ?_⟩
    simp only [or_true, true_or, iff_true]
    refine heapOrdered_iff.2 (fun i hi h0 => ?_)
    have := ho' i (by omega) h0
    rwa [hv_append_left (by omega), hv_append_left (by omega)] at this
  -- old values
  have hold : ∀ i < init.length, i ≠ 0 → inOrder b (hv init ((i - 1) / 2)) (hv init i) := by
    intro i hi h0
    have := ho' i (by omega) h0
    rwa [hv_append_left (by omega), hv_append_left (by omega)] at this
  have hset : ∀ i, hv (init.set d last) i = if i = d then last else hv init i := hv_set hd last
  by_cases hc : d = 0 ∨ inOrder b (hv init ((d - 1) / 2)) last
  · obtain ⟨ys, e, p, o⟩ := siftDown_spec b (if b then ⊥ else ⊤ : N) (init.length + 1)
      (init.set d last) d (by simp; omega)
    rw [List.length_set] at e
    rw [e]
    refine ⟨ys, by simp [Except.map], ?_⟩
    have : d = 0 ∨ d = init.length ∨ inOrder b (hv init ((d - 1) / 2)) last := by tauto
    simp only [this, iff_true]
    refine o ⟨?_, ?_⟩
    · intro i hi hi0 hp
      rw [List.length_set] at hi
      rw [hset, hset, if_neg hp]
      by_cases c1 : i = d
      · rw [if_pos c1, c1]
        exact hc.resolve_left (fun e => hi0 (c1.trans e))
      · rw [if_neg c1]; exact hold i hi hi0
    · intro i hi hi0 hp hd0
      rw [List.length_set] at hi
      rw [hset, hset, if_neg (by omega), if_neg (by omega)]
      have h1 := hold d hd hd0
      have h2 := hold i hi hi0
      rw [hp] at h2
      exact inOrder_trans h1 h2
  · rw [not_or] at hc
    obtain ⟨hd0, hno⟩ := hc
    have hstay : siftDown b init.length (init.length + 1)
        (init.set d last ++ [if b then ⊥ else ⊤]) d =
        .ok (init.set d last ++ [if b then ⊥ else ⊤]) := by
      have := siftDown_stays (b := b) (s := if b then ⊥ else ⊤) (fuel := init.length + 1)
        (xs := init.set d last) (k := d) (by simp) (by
          intro i hi hi0 hp
          rw [List.length_set] at hi
          rw [hset, hset, if_pos rfl, if_neg (by omega)]
          have h1 := hold d hd hd0
          have h2 := hold i hi hi0
          rw [hp] at h2
          exact inOrder_trans ((inOrder_total b _ _).resolve_right hno) (inOrder_trans h1 h2))
      rwa [List.length_set] at this
    rw [hstay]
    refine ⟨init.set d last, by simp [Except.map], ?_⟩
    have : ¬ (d = 0 ∨ d = init.length ∨ inOrder b (hv init ((d - 1) / 2)) last) := by
      rintro (h | h | h)
      · exact hd0 h
      · omega
      · exact hno h
    simp only [this, iff_false]
    intro hbad
    have := heapOrdered_iff.1 hbad d (by simpa using hd) hd0
    rw [hset, hset, if_neg (by omega), if_pos rfl] at this
    exact hno this

/-! ## Extremes -/

theorem heap_root {b : Bool} {xs : List N} (h : HeapOrdered b xs) :
    ∀ i < xs.length, inOrder b (hv xs 0) (hv xs i) := by
  intro i
  induction i using Nat.strong_induction_on with
  | _ i ih =>
    intro hi
    by_cases h0 : i = 0
    · rw [h0]; exact inOrder_refl _ _
    · exact inOrder_trans (ih ((i - 1) / 2) (by omega) (by omega)) (heapOrdered_iff.1 h i hi h0)

theorem heap_leaf {b : Bool} {xs : List N} (h : HeapOrdered b xs) :
    ∀ k i, i < xs.length → xs.length ≤ i + k →
      ∃ j, xs.length / 2 ≤ j ∧ j < xs.length ∧ inOrder b (hv xs i) (hv xs j) := by
  intro k
  induction k with
  | zero => intro i hi hk; omega
  | succ k ih =>
    intro i hi hk
    by_cases hl : xs.length / 2 ≤ i
    · exact ⟨i, hl, hi, inOrder_refl _ _⟩
    · obtain ⟨j, h1, h2, h3⟩ := ih (2 * i + 1) (by omega) (by omega)
      refine ⟨j, h1, h2, inOrder_trans ?_ h3⟩
      have := heapOrdered_iff.1 h (2 * i + 1) (by omega) (by omega)
      rwa [show (2 * i + 1 - 1) / 2 = i by omega] at this

theorem foldl_extreme (b : Bool) : ∀ (xs : List N) (x : N),
    xs.foldl (if b then max else min) x ∈ x :: xs ∧
    ∀ y ∈ x :: xs, inOrder b y (xs.foldl (if b then max else min) x)
  | [], x => ⟨by simp, by simp [inOrder_refl]⟩
  | a :: xs, x => by
    obtain ⟨h1, h2⟩ := foldl_extreme b xs ((if b then max else min) x a)
    simp only [List.foldl_cons]
    have hx : inOrder b x ((if b then max else min) x a) ∧ inOrder b a ((if b then max else min) x a) ∧
        ((if b then max else min) x a = x ∨ (if b then max else min) x a = a) := by
      cases b <;> simp [inOrder, min_def, max_def] <;> grind
    constructor
    · rcases List.mem_cons.1 h1 with h | h
      · rw [h]; rcases hx.2.2 with h | h <;> rw [h] <;> simp
      · simp [h]
    · intro y hy
      have h3 := h2 _ (List.mem_cons_self)
      rcases List.mem_cons.1 hy with rfl | hy
      · exact inOrder_trans hx.1 h3
      · rcases List.mem_cons.1 hy with rfl | hy
        · exact inOrder_trans hx.2.1 h3
        · exact h2 y (List.mem_cons_of_mem _ hy)

theorem bhFirst_spec {b : Bool} {xs : List N} (h : HeapOrdered b xs) (hne : xs ≠ []) :
    ∃ m, bhFirst xs = .ok m ∧ m ∈ xs ∧ ∀ y ∈ xs, inOrder b m y := by
  have hl : 0 < xs.length := List.length_pos_iff.2 hne
  refine ⟨hv xs 0, by simp only [bhFirst, hne, if_false, bhGet_eq hl],
    by rw [hv_eq hl]; exact List.getElem_mem _, ?_⟩
  intro y hy
  obtain ⟨i, hi, rfl⟩ := List.mem_iff_getElem.1 hy
  rw [← hv_eq hi]
  exact heap_root h i hi

theorem bhFarthest_spec {b : Bool} {xs : List N} (h : HeapOrdered b xs) (hne : xs ≠ []) :
    ∃ m, bhFarthest b xs = .ok m ∧ m ∈ xs ∧ ∀ y ∈ xs, inOrder b y m := by
  have hl : 0 < xs.length := List.length_pos_iff.2 hne
  obtain ⟨z, zs, hz⟩ : ∃ z zs, xs.drop (xs.length / 2) = z :: zs := by
    cases hd : xs.drop (xs.length / 2) with
    | nil => have := List.drop_eq_nil_iff.1 hd; omega
    | cons z zs => exact ⟨z, zs, rfl⟩
  obtain ⟨h1, h2⟩ := foldl_extreme b zs z
  refine ⟨zs.foldl (if b then max else min) z,
    by simp only [bhFarthest, hne, if_false, hz, pyExtreme], ?_, ?_⟩
  · rw [← hz] at h1; exact List.mem_of_mem_drop h1
  · intro y hy
    obtain ⟨i, hi, rfl⟩ := List.mem_iff_getElem.1 hy
    obtain ⟨j, j1, j2, j3⟩ := heap_leaf h xs.length i hi (by omega)
    rw [← hv_eq hi]
    refine inOrder_trans j3 (h2 _ ?_)
    rw [← hz, hv_eq j2]
    rw [List.mem_iff_getElem]
    exact ⟨j - xs.length / 2, by simp; omega, by simp; congr 1; omega⟩

/-! ## Iteration -/

/-- the nodes after the first `m` items have been attached -/
def canonNode (xs : List N) (m k : Nat) : HNode N :=
  ⟨hv xs k, if 2 * k + 1 < m then some (2 * k + 1) else none,
    if 2 * k + 2 < m then some (2 * k + 2) else none⟩

def canon (xs : List N) (m : Nat) : List (HNode N) := (List.range m).map (canonNode xs m)

theorem length_canon (xs : List N) (m : Nat) : (canon xs m).length = m := by simp [canon]

theorem canon_left (xs : List N) (p : Nat) :
    (canon xs (2 * p + 1)).modify p (fun nd => { nd with left := some (2 * p + 1) }) ++
      [⟨hv xs (2 * p + 1), none, none⟩] = canon xs (2 * p + 2) := by
  apply List.ext_getElem (by simp [canon])
  intro i h1 h2
  simp only [canon, List.length_map, List.length_range] at h2
  by_cases hi : i < 2 * p + 1
  · rw [List.getElem_append_left (by simpa [canon] using hi), List.getElem_modify]
    simp only [canon, List.getElem_map, List.getElem_range, canonNode]
    split
    · subst_vars
      simp only [HNode.mk.injEq, true_and]
      refine ⟨by rw [if_pos (by omega)], ?_⟩
      rw [if_neg (by omega), if_neg (by omega)]
    · simp only [HNode.mk.injEq, true_and]
      constructor <;> congr 1 <;> simp only [eq_iff_iff] <;> omega
  · have : i = 2 * p + 1 := by omega
    subst this
    rw [List.getElem_append_right (by simp [canon])]
    simp only [canon, List.getElem_map, List.getElem_range, canonNode, List.length_modify,
      List.length_map, List.length_range, Nat.sub_self, List.getElem_cons_zero, HNode.mk.injEq,
      true_and]
    rw [if_neg (by omega), if_neg (by omega)]
    exact ⟨rfl, rfl⟩

theorem canon_right (xs : List N) (p : Nat) :
    (canon xs (2 * p + 2)).modify p (fun nd => { nd with right := some (2 * p + 2) }) ++
      [⟨hv xs (2 * p + 2), none, none⟩] = canon xs (2 * p + 3) := by
  apply List.ext_getElem (by simp [canon])
  intro i h1 h2
  simp only [canon, List.length_map, List.length_range] at h2
  by_cases hi : i < 2 * p + 2
  · rw [List.getElem_append_left (by simpa [canon] using hi), List.getElem_modify]
    simp only [canon, List.getElem_map, List.getElem_range, canonNode]
    split
    · subst_vars
      simp only [HNode.mk.injEq, true_and]
      refine ⟨by rw [if_pos (by omega), if_pos (by omega)], by rw [if_pos (by omega)]⟩
    · simp only [HNode.mk.injEq, true_and]
      constructor <;> congr 1 <;> simp only [eq_iff_iff] <;> omega
  · have : i = 2 * p + 2 := by omega
    subst this
    rw [List.getElem_append_right (by simp [canon])]
    simp only [canon, List.getElem_map, List.getElem_range, canonNode, List.length_modify,
      List.length_map, List.length_range, Nat.sub_self, List.getElem_cons_zero, HNode.mk.injEq,
      true_and]
    rw [if_neg (by omega), if_neg (by omega)]
    exact ⟨rfl, rfl⟩

theorem transformLoop_end {xs : List N} {fuel : Nat} {nodes : List (HNode N)} {q : List Nat} {i : Nat}
    (h : ¬ i < xs.length) : transformLoop xs fuel nodes q i = .ok nodes := by
  cases fuel <;> cases q <;> (rw [transformLoop, if_neg h]; try simp)

theorem transformLoop_spec (xs : List N) : ∀ (fuel p : Nat), 2 * p + 1 ≤ xs.length →
    xs.length ≤ fuel + p →
    transformLoop xs fuel (canon xs (2 * p + 1)) (List.range' p (p + 1)) (2 * p + 1) =
      .ok (canon xs xs.length) := by
  intro fuel
  induction fuel with
  | zero =>
    intro p h1 h2
    rw [transformLoop_end (by omega), show xs.length = 2 * p + 1 by omega]
  | succ fuel ih =>
    intro p h1 h2
    by_cases hlt : 2 * p + 1 < xs.length
    · rw [List.range'_succ, transformLoop, if_pos hlt]
      simp only [bhGet_eq hlt, bind, Except.bind, length_canon, canon_left]
      by_cases hlt2 : 2 * p + 1 + 1 < xs.length
      · rw [if_pos hlt2]
        simp only [bhGet_eq hlt2, canon_right]
        have hq : List.range' (p + 1) p ++ [2 * p + 1, 2 * p + 1 + 1] =
            List.range' (p + 1) (p + 1 + 1) := by
          rw [List.range'_concat, List.range'_concat]
          simp only [List.append_assoc, List.cons_append, List.nil_append]
          congr 2
          · omega
          · congr 1; omega
        rw [hq]
        exact ih (p + 1) (by omega) (by omega)
      · rw [if_neg hlt2, transformLoop_end (by omega), show xs.length = 2 * p + 2 by omega]
    · rw [transformLoop_end (by omega), show xs.length = 2 * p + 1 by omega]

theorem transform_spec {xs : List N} (h : xs ≠ []) : transform xs = .ok (canon xs xs.length) := by
  cases xs with
  | nil => exact absurd rfl h
  | cons x xs => exact transformLoop_spec (x :: xs) _ 0 (by simp) (by simp)

theorem hnode_canon {xs : List N} {k : Nat} (h : k < xs.length) :
    hnode (canon xs xs.length) k = .ok (hv xs k,
      List.range' (2 * k + 1) (min (2 * k + 3) xs.length - (2 * k + 1))) := by
  have : (canon xs xs.length)[k]? = some (canonNode xs xs.length k) := by simp [canon, h]
  simp only [hnode, this, canonNode]
  by_cases h1 : 2 * k + 1 < xs.length
  · by_cases h2 : 2 * k + 2 < xs.length
    · rw [if_pos h1, if_pos h2, show min (2 * k + 3) xs.length - (2 * k + 1) = 2 by omega]; rfl
    · rw [if_pos h1, if_neg h2, show min (2 * k + 3) xs.length - (2 * k + 1) = 1 by omega]; rfl
  · rw [if_neg h1, if_neg (by omega), show min (2 * k + 3) xs.length - (2 * k + 1) = 0 by omega]; rfl

theorem levelLoop_spec (xs : List N) : ∀ (c a : Nat), a + c ≤ xs.length →
    levelLoop (canon xs xs.length) (List.range' a c) = .ok ((List.range' a c).map (hv xs),
      List.range' (2 * a + 1) (min (2 * (a + c) + 1) xs.length - (2 * a + 1)))
  | 0, a, h => by simp [levelLoop, show min (2 * a + 1) xs.length - (2 * a + 1) = 0 by omega]
  | c + 1, a, h => by
    have ih := levelLoop_spec xs c (a + 1) (by omega)
    rw [List.range'_succ, levelLoop, hnode_canon (by omega)]
    simp only [bind, Except.bind, ih, List.map_cons]
    congr 2
    by_cases h1 : 2 * a + 3 ≤ xs.length
    · rw [show min (2 * (a + (c + 1)) + 1) xs.length - (2 * a + 1) =
          (min (2 * a + 3) xs.length - (2 * a + 1)) +
          (min (2 * (a + 1 + c) + 1) xs.length - (2 * (a + 1) + 1)) by omega, ← List.range'_append_1]
      congr 2
      omega
    · rw [show min (2 * (a + 1 + c) + 1) xs.length - (2 * (a + 1) + 1) = 0 by omega,
        List.range'_zero, List.append_nil]
      congr 1
      omega

theorem map_hv_range (xs : List N) (a : Nat) :
    (List.range' a (xs.length - a)).map (hv xs) = xs.drop a := by
  apply List.ext_getElem (by simp)
  intro i h1 h2
  simp only [List.length_map, List.length_range'] at h1
  simp only [List.getElem_map, List.getElem_range', Nat.one_mul, List.getElem_drop]
  rw [hv_eq (by omega)]

theorem levelsLoop_spec (xs : List N) : ∀ (fuel a c : Nat), a + c ≤ xs.length →
    (c = a + 1 ∨ (a + c = xs.length ∧ c ≤ a)) → xs.length + 1 ≤ fuel + a →
    levelsLoop (canon xs xs.length) fuel (List.range' a c) = .ok (xs.drop a) := by
  intro fuel
  induction fuel with
  | zero =>
    intro a c h1 h2 h3
    omega
  | succ fuel ih =>
    intro a c h1 h2 h3
    cases c with
    | zero =>
      simp only [List.range'_zero, levelsLoop]
      rw [List.drop_of_length_le (by omega)]
    | succ c =>
      have hl := levelLoop_spec xs (c + 1) a h1
      rw [List.range'_succ] at hl ⊢
      rw [levelsLoop, hl]
      simp only [bind, Except.bind]
      by_cases hf : c + 1 = a + 1
      · have := ih (2 * a + 1) (min (2 * (a + (c + 1)) + 1) xs.length - (2 * a + 1)) (by omega)
          (by omega) (by omega)
        rw [this]
        simp only
        congr 1
        rw [← List.range'_succ, ← map_hv_range xs (2 * a + 1), ← map_hv_range xs a, ← List.map_append]
        congr 1
        have happ := List.range'_append_1 (s := a) (m := c + 1) (n := xs.length - (2 * a + 1))
        rw [show a + (c + 1) = 2 * a + 1 by omega] at happ
        rw [happ, show xs.length - a = (c + 1) + (xs.length - (2 * a + 1)) by omega]
      · rw [show min (2 * (a + (c + 1)) + 1) xs.length - (2 * a + 1) = 0 by omega, List.range'_zero]
        have : levelsLoop (canon xs xs.length) fuel [] = .ok [] := by cases fuel <;> rfl
        rw [this]
        simp only [List.append_nil]
        rw [← List.range'_succ, ← map_hv_range xs a]
        congr 3
        omega

theorem bhIter_spec {xs : List N} (h : xs ≠ []) : bhIter xs = .ok xs := by
  have hl := List.length_pos_iff.2 h
  simp only [bhIter, transform_spec h, bind, Except.bind]
  have := levelsLoop_spec xs (xs.length + 1) 0 1 (by omega) (Or.inl rfl) (by omega)
  simpa using this

end Extra
