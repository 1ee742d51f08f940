import Verif.Trees.HeapNan
import Verif.Trees.BinHeapProofs

/-! # Specification and helper lemmas for heaps that hold `nan` -/

set_option linter.unusedSectionVars false
set_option linter.unusedSimpArgs false

namespace Extra
variable {N : Type} [LinearOrder N] [BoundedOrder N]

/-! ## Specification -/

/-- a number is in order with the item at half its position, if that is a number too -/
def NanOrdered (isMin : Bool) (xs : List (IdNum N)) : Prop :=
  ∀ i p c, i ≠ 0 → xs[(i - 1) / 2]? = some (.num p) → xs[i]? = some (.num c) → inOrder isMin p c

/-- position `j` holds a number, and so does every position on the way from there to the first: with items
numbered from 0, the one at `p` has those at `2p+1` and `2p+2` below it -/
inductive Joined (vs : List (IdNum N)) : Nat → Prop
  | first (a : N) : vs[0]? = some (.num a) → Joined vs 0
  | next (p j : Nat) (a : N) : Joined vs p → j = 2 * p + 1 ∨ j = 2 * p + 2 → vs[j]? = some (.num a) → Joined vs j

/-- calls whose outcome depends only on which numbers are held -/
inductive NanHeapOp (N : Type)
  | insert (v : IdNum N)
  | remove (v : IdNum N)
  | contains (v : IdNum N)
  | len

/-- the calls on the list of the heap: the result (`.inl` for the answer of `in`, a warning of `remove`), and the list —
_heap.py:128, :204-206, :226-246, :325-354 -/
def nhExec (isMin : Bool) (xs : List (IdNum N)) : NanHeapOp N → Except Err ((Bool ⊕ Nat) × List (IdNum N))
  | .insert v => (nhInsert isMin xs v).map fun ys => (.inl false, ys)
  | .remove v => (nhRemove isMin xs v).map fun p => (.inl p.2, p.1)
  | .contains v => .ok (.inl (decide (v ∈ xs)), xs)
  | .len => .ok (.inr xs.length, xs)

/-- a history of calls -/
def nhExecs (isMin : Bool) : List (NanHeapOp N) → List (IdNum N) → Except Err (List (Bool ⊕ Nat) × List (IdNum N))
  | [], xs => .ok ([], xs)
  | op :: ops, xs => do
    let (r, ys) ← nhExec isMin xs op
    let (rs, zs) ← nhExecs isMin ops ys
    .ok (r :: rs, zs)

/-- the same calls on a bag, given as a list in any order: each `nan` object is an item of its own -/
def nanBag : List (NanHeapOp N) → List (IdNum N) → List (Bool ⊕ Nat) × List (IdNum N)
  | [], s => ([], s)
  | .insert v :: ops, s => ((.inl false) :: (nanBag ops (v :: s)).1, (nanBag ops (v :: s)).2)
  | .remove v :: ops, s => ((.inl (decide (v ∉ s))) :: (nanBag ops (s.erase v)).1, (nanBag ops (s.erase v)).2)
  | .contains v :: ops, s => ((.inl (decide (v ∈ s))) :: (nanBag ops s).1, (nanBag ops s).2)
  | .len :: ops, s => ((.inr (s.length)) :: (nanBag ops s).1, (nanBag ops s).2)

/-! ## Order -/

/-- the code does not find the two out of order -/
def Bef (b : Bool) (p c : IdNum N) : Prop := nhWrong b p c = false

theorem nhWrong_nums {b : Bool} {p c : IdNum N} (h : nhWrong b p c = true) :
    ∃ x y, p = .num x ∧ c = .num y ∧ ¬ inOrder b x y := by
  cases p <;> cases c <;> cases b <;> simp_all [nhWrong, IdNum.lt, inOrder]

theorem bef_iff {b : Bool} {p c : IdNum N} : Bef b p c ↔ ∀ x y, p = .num x → c = .num y → inOrder b x y := by
  cases p <;> cases c <;> cases b <;> simp [Bef, nhWrong, IdNum.lt, inOrder]

theorem bef_nums {b : Bool} {x y : N} : Bef b (.num x) (.num y) ↔ inOrder b x y := by
  rw [bef_iff]
  constructor
  · intro h; exact h x y rfl rfl
  · intro h x' y' e1 e2; cases e1; cases e2; exact h

theorem bef_trans {b : Bool} {p c : IdNum N} {y : N} (h1 : Bef b p (.num y)) (h2 : Bef b (.num y) c) : Bef b p c := by
  rw [bef_iff] at *
  intro x z e1 e2
  exact inOrder_trans (h1 x y e1 rfl) (h2 y z rfl e2)

/-- the item at a position -/
def nv (xs : List (IdNum N)) (i : Nat) : IdNum N := xs.getD i (.nan 0)

theorem nv_eq {xs : List (IdNum N)} {i : Nat} (h : i < xs.length) : nv xs i = xs[i] := by
  simp [nv, h]

theorem nv_some {xs : List (IdNum N)} {i : Nat} (h : i < xs.length) : xs[i]? = some (nv xs i) := by
  simp [nv, h]

theorem nhGet_eq {xs : List (IdNum N)} {i : Nat} (h : i < xs.length) : nhGet xs i = .ok (nv xs i) := by
  simp [nhGet, nv, h]

theorem nv_set {xs : List (IdNum N)} {i : Nat} (h : i < xs.length) (a : IdNum N) (j : Nat) :
    nv (xs.set i a) j = if j = i then a else nv xs j := by
  simp only [nv, List.getD_eq_getElem?_getD, List.getElem?_set]
  by_cases hj : i = j
  · subst hj; simp [h]
  · rw [if_neg hj, if_neg (fun e => hj e.symm)]

theorem length_nhSwap (xs : List (IdNum N)) (i j : Nat) (a b : IdNum N) :
    (nhSwap xs i j a b).length = xs.length := by simp [nhSwap]

theorem nv_swap {xs : List (IdNum N)} {i j : Nat} (hi : i < xs.length) (hj : j < xs.length) (a b : IdNum N)
    (k : Nat) : nv (nhSwap xs i j a b) k = if k = j then a else if k = i then b else nv xs k := by
  rw [nhSwap, nv_set (by simpa using hj), nv_set hi]

theorem nhSwap_perm {xs : List (IdNum N)} {i j : Nat} (hi : i < xs.length) (hj : j < xs.length) :
    (nhSwap xs i j (nv xs i) (nv xs j)).Perm xs := by
  rw [nhSwap, nv_eq hi, nv_eq hj]
  exact List.set_set_perm hi hj

theorem nanOrdered_iff {b : Bool} {xs : List (IdNum N)} :
    NanOrdered b xs ↔ ∀ i < xs.length, i ≠ 0 → Bef b (nv xs ((i - 1) / 2)) (nv xs i) := by
  constructor
  · intro h i hi h0
    rw [bef_iff]
    intro x y e1 e2
    exact h i x y h0 (by rw [nv_some (by omega), e1]) (by rw [nv_some hi, e2])
  · intro h i p c h0 h1 h2
    have hi : i < xs.length := by
      by_contra hc
      rw [List.getElem?_eq_none (by omega)] at h2
      cases h2
    rw [nv_some (by omega)] at h1 h2
    have := bef_iff.1 (h i hi h0) p c (by simpa using h1) (by simpa using h2)
    exact this

/-! ## Inserting -/

/-- ordered, except that the item at `k` may be out of order with its parent -/
def NUpOK (b : Bool) (xs : List (IdNum N)) (k : Nat) : Prop :=
  (∀ i < xs.length, i ≠ 0 → i ≠ k → Bef b (nv xs ((i - 1) / 2)) (nv xs i)) ∧
  (∀ i < xs.length, i ≠ 0 → (i - 1) / 2 = k → k ≠ 0 → Bef b (nv xs ((k - 1) / 2)) (nv xs i))

theorem nhUp_spec (b : Bool) (P : List (IdNum N) → Prop)
    (hP : ∀ xs k x y, k + 1 < xs.length → nv xs (k / 2) = .num x → nv xs (k + 1) = .num y → P xs →
      P (nhSwap xs (k / 2) (k + 1) (.num x) (.num y))) :
    ∀ (fuel : Nat) (xs : List (IdNum N)) (k : Nat), k ≤ fuel → k < xs.length →
    ∃ ys, nhUp b fuel xs k = .ok ys ∧ ys.Perm xs ∧ (P xs → P ys) ∧ (NUpOK b xs k → NanOrdered b ys)
  | fuel, xs, 0, _, _ => by
    refine ⟨xs, by unfold nhUp; simp, List.Perm.refl _, id, fun h => nanOrdered_iff.2 ?_⟩
    exact fun i hi h0 => h.1 i hi h0 h0
  | 0, _, k + 1, hf, _ => by omega
  | fuel + 1, xs, k + 1, hf, hk => by
    have hp : k / 2 < xs.length := by omega
    have hstep : nhUp b (fuel + 1) xs (k + 1) =
        if nhWrong b (nv xs (k / 2)) (nv xs (k + 1)) then
          nhUp b fuel (nhSwap xs (k / 2) (k + 1) (nv xs (k / 2)) (nv xs (k + 1))) (k / 2)
        else .ok xs := by
      rw [nhUp]
      rw [if_neg (Nat.succ_ne_zero k)]
      simp only [Nat.add_sub_cancel, nhGet_eq hk, nhGet_eq hp]
      rfl
    by_cases hw : nhWrong b (nv xs (k / 2)) (nv xs (k + 1)) = true
    · rw [if_pos hw] at hstep
      obtain ⟨x, y, ex, ey, hno⟩ := nhWrong_nums hw
      have hck : Bef b (nv xs (k + 1)) (nv xs (k / 2)) := by
        rw [ex, ey, bef_nums]; exact (inOrder_total b _ _).resolve_right hno
      obtain ⟨ys, e, p, pp, o⟩ := nhUp_spec b P hP fuel
        (nhSwap xs (k / 2) (k + 1) (nv xs (k / 2)) (nv xs (k + 1))) (k / 2) (by omega)
        (by rw [length_nhSwap]; exact hp)
      refine ⟨ys, by rw [hstep, e], p.trans (nhSwap_perm hp hk), fun h => pp ?_, fun hu => o ?_⟩
      · rw [ex, ey]; exact hP xs k x y hk ex ey h
      obtain ⟨h1, h2⟩ := hu
      constructor
      · intro i hi hi0 hik
        rw [length_nhSwap] at hi
        rw [nv_swap hp hk, nv_swap hp hk]
        by_cases c1 : i = k + 1
        · subst c1
          rw [if_pos rfl, if_neg (by omega), if_pos (by omega)]
          exact hck
        · rw [if_neg c1, if_neg hik]
          by_cases c2 : (i - 1) / 2 = k + 1
          · rw [if_pos c2]
            have := h2 i hi hi0 c2 (by omega)
            simpa using this
          · rw [if_neg c2]
            have h3 := h1 i hi hi0 c1
            by_cases c3 : (i - 1) / 2 = k / 2
            · rw [if_pos c3]
              rw [c3, ex] at h3
              rw [ex] at hck
              exact bef_trans hck h3
            · rw [if_neg c3]; exact h3
      · intro i hi hi0 hik hk0
        rw [length_nhSwap] at hi
        rw [nv_swap hp hk, nv_swap hp hk, if_neg (by omega), if_neg (by omega)]
        have h3 := h1 (k / 2) hp hk0 (by omega)
        by_cases c1 : i = k + 1
        · rw [if_pos c1]; exact h3
        · rw [if_neg c1, if_neg (by omega)]
          have h4 := h1 i hi hi0 c1
          rw [hik, ex] at h4
          rw [ex] at h3
          exact bef_trans h3 h4
    · rw [if_neg hw] at hstep
      refine ⟨xs, hstep, List.Perm.refl _, id, fun hu => nanOrdered_iff.2 ?_⟩
      intro i hi hi0
      by_cases c1 : i = k + 1
      · subst c1; simpa [Bef] using hw
      · exact hu.1 i hi hi0 c1

theorem nv_append_left {xs ys : List (IdNum N)} {i : Nat} (h : i < xs.length) :
    nv (xs ++ ys) i = nv xs i := by
  simp [nv, h, List.getElem?_append_left]

theorem nhInsert_spec (b : Bool) (P : List (IdNum N) → Prop)
    (hP : ∀ xs k x y, k + 1 < xs.length → nv xs (k / 2) = .num x → nv xs (k + 1) = .num y → P xs →
      P (nhSwap xs (k / 2) (k + 1) (.num x) (.num y))) (xs : List (IdNum N)) (v : IdNum N) :
    ∃ ys, nhInsert b xs v = .ok ys ∧ ys.Perm (xs ++ [v]) ∧ (P (xs ++ [v]) → P ys) ∧
      (NanOrdered b xs → NanOrdered b ys) := by
  obtain ⟨ys, e, p, pp, o⟩ := nhUp_spec b P hP (xs.length + 1) (xs ++ [v]) xs.length (by omega) (by simp)
  refine ⟨ys, e, p, pp, fun h => o ⟨?_, ?_⟩⟩
  · intro i hi hi0 hne
    simp only [List.length_append, List.length_singleton] at hi
    rw [nv_append_left (by omega), nv_append_left (by omega)]
    exact nanOrdered_iff.1 h i (by omega) hi0
  · intro i hi _ hp _
    simp only [List.length_append, List.length_singleton] at hi
    omega

/-! ## What `heapify` makes -/

theorem Joined.lt {vs : List (IdNum N)} {j : Nat} (h : Joined vs j) : j < vs.length := by
  cases h with
  | first a h => exact (List.getElem?_eq_some_iff.1 h).1
  | next p j a _ _ h => exact (List.getElem?_eq_some_iff.1 h).1

theorem Joined.num {vs : List (IdNum N)} {j : Nat} (h : Joined vs j) : ∃ a, vs[j]? = some (.num a) := by
  cases h with
  | first a h => exact ⟨a, h⟩
  | next p j a _ _ h => exact ⟨a, h⟩

theorem joined_append {vs ws : List (IdNum N)} {j : Nat} (h : Joined vs j) : Joined (vs ++ ws) j := by
  induction h with
  | first a h => exact .first a (by rw [List.getElem?_append_left (List.getElem?_eq_some_iff.1 h).1]; exact h)
  | next p j a _ hj h ih =>
    exact .next p j a ih hj (by rw [List.getElem?_append_left (List.getElem?_eq_some_iff.1 h).1]; exact h)

theorem joined_of_append {vs ws : List (IdNum N)} {j : Nat} (h : Joined (vs ++ ws) j) (hl : j < vs.length) :
    Joined vs j := by
  induction h with
  | first a h => exact .first a (by rw [← List.getElem?_append_left (l₂ := ws) hl]; exact h)
  | next p j a _ hj h ih =>
    exact .next p j a (ih (by omega)) hj (by rw [← List.getElem?_append_left (l₂ := ws) hl]; exact h)

theorem joined_parent {vs : List (IdNum N)} {k : Nat} {y : N} (h2 : vs[k + 1]? = some (.num y)) : Joined vs (k + 1) ↔ Joined vs (k / 2) := by
  constructor
  · intro h
    cases h with
    | next p _ a hp hj _ => rwa [show k / 2 = p by omega]
  · intro h
    exact .next (k / 2) (k + 1) y h (by omega) h2

/-- what stays true while items move: `nan` stays where it was inserted, and the joined positions hold the numbers
inserted there -/
structure NanKept (vs xs : List (IdNum N)) : Prop where
  len : xs.length = vs.length
  nan : ∀ i k : Nat, xs[i]? = some (IdNum.nan k) ↔ vs[i]? = some (IdNum.nan k)
  sub : ∀ (i : Nat) (x : N), Joined vs i → xs[i]? = some (.num x) → ∃ j, Joined vs j ∧ vs[j]? = some (.num x)
  sup : ∀ (j : Nat) (x : N), Joined vs j → vs[j]? = some (.num x) → ∃ i, Joined vs i ∧ xs[i]? = some (.num x)

theorem getElem?_nhSwap {xs : List (IdNum N)} {i j : Nat} (hi : i < xs.length) (hj : j < xs.length) (a b : IdNum N)
    (k : Nat) : (nhSwap xs i j a b)[k]? = if k = j then some a else if k = i then some b else xs[k]? := by
  simp only [nhSwap, List.getElem?_set, List.length_set]
  by_cases c1 : k = j
  · subst c1; simp [hj]
  · have c1' : ¬ j = k := fun e => c1 e.symm
    by_cases c2 : k = i
    · subst c2; simp [hi, c1, c1']
    · have c2' : ¬ i = k := fun e => c2 e.symm
      simp [c1, c1', c2, c2']

theorem NanKept.num {vs xs : List (IdNum N)} (h : NanKept vs xs) {i : Nat} {x : N} (hx : xs[i]? = some (.num x)) :
    ∃ y, vs[i]? = some (.num y) := by
  have hi := (List.getElem?_eq_some_iff.1 hx).1
  have hi' : i < vs.length := h.len ▸ hi
  cases hv : vs[i] with
  | num y => exact ⟨y, by rw [List.getElem?_eq_getElem hi', hv]⟩
  | nan k =>
    have := (h.nan i k).2 (by rw [List.getElem?_eq_getElem hi', hv])
    rw [hx] at this; cases this

theorem kept_swap (vs : List (IdNum N)) (xs : List (IdNum N)) (k : Nat) (x y : N) (hk : k + 1 < xs.length)
    (hx : nv xs (k / 2) = .num x) (hy : nv xs (k + 1) = .num y) (h : NanKept vs xs) :
    NanKept vs (nhSwap xs (k / 2) (k + 1) (.num x) (.num y)) := by
  have hp : k / 2 < xs.length := by omega
  have ex : xs[k / 2]? = some (.num x) := by rw [nv_some hp, hx]
  have ey : xs[k + 1]? = some (.num y) := by rw [nv_some hk, hy]
  obtain ⟨x', ex'⟩ := h.num ex
  obtain ⟨y', ey'⟩ := h.num ey
  have hj := joined_parent ey'
  refine ⟨by rw [length_nhSwap, h.len], ?_, ?_, ?_⟩
  · intro i m
    rw [getElem?_nhSwap hp hk]
    by_cases c1 : i = k + 1
    · subst c1; simp [ey']
    · by_cases c2 : i = k / 2
      · subst c2; simp [ex', c1]
      · rw [if_neg c1, if_neg c2]; exact h.nan i m
  · intro i z hi hz
    rw [getElem?_nhSwap hp hk] at hz
    by_cases c1 : i = k + 1
    · subst c1
      rw [if_pos rfl] at hz
      exact h.sub (k / 2) z (hj.1 hi) (by rw [ex, hz])
    · rw [if_neg c1] at hz
      by_cases c2 : i = k / 2
      · subst c2
        rw [if_pos rfl] at hz
        exact h.sub (k + 1) z (hj.2 hi) (by rw [ey, hz])
      · rw [if_neg c2] at hz
        exact h.sub i z hi hz
  · intro j z hjj hz
    obtain ⟨i, hi, e⟩ := h.sup j z hjj hz
    by_cases c1 : i = k + 1
    · subst c1
      exact ⟨k / 2, hj.1 hi, by rw [getElem?_nhSwap hp hk, if_neg (by omega), if_pos rfl, ← e, ey]⟩
    · by_cases c2 : i = k / 2
      · subst c2
        exact ⟨k + 1, hj.2 hi, by rw [getElem?_nhSwap hp hk, if_pos rfl, ← e, ex]⟩
      · exact ⟨i, hi, by rw [getElem?_nhSwap hp hk, if_neg c1, if_neg c2, e]⟩

theorem kept_append {vs xs : List (IdNum N)} (h : NanKept vs xs) (v : IdNum N) : NanKept (vs ++ [v]) (xs ++ [v]) := by
  refine ⟨by simp [h.len], ?_, ?_, ?_⟩
  · intro i k
    by_cases hi : i < vs.length
    · rw [List.getElem?_append_left hi, List.getElem?_append_left (by rw [h.len]; exact hi)]; exact h.nan i k
    · rw [List.getElem?_append_right (by rw [h.len]; omega), List.getElem?_append_right (by omega), h.len]
  · intro i x hi hx
    by_cases hl : i < vs.length
    · rw [List.getElem?_append_left (by rw [h.len]; exact hl)] at hx
      obtain ⟨j, hj, e⟩ := h.sub i x (joined_of_append hi hl) hx
      exact ⟨j, joined_append hj, by rw [List.getElem?_append_left hj.lt, e]⟩
    · refine ⟨i, hi, ?_⟩
      rw [List.getElem?_append_right (by rw [h.len]; omega), h.len] at hx
      rw [List.getElem?_append_right (by omega), hx]
  · intro j x hj hx
    by_cases hl : j < vs.length
    · rw [List.getElem?_append_left hl] at hx
      obtain ⟨i, hi, e⟩ := h.sup j x (joined_of_append hj hl) hx
      exact ⟨i, joined_append hi, by rw [List.getElem?_append_left (by rw [h.len]; exact hi.lt), e]⟩
    · refine ⟨j, hj, ?_⟩
      rw [List.getElem?_append_right (by omega)] at hx
      rw [List.getElem?_append_right (by rw [h.len]; omega), h.len, hx]

theorem nhInserts_spec (b : Bool) : ∀ (ws vs xs : List (IdNum N)), NanKept vs xs → xs.Perm vs → NanOrdered b xs →
    ∃ ys, nhInserts b xs ws = .ok ys ∧ NanKept (vs ++ ws) ys ∧ ys.Perm (vs ++ ws) ∧ NanOrdered b ys
  | [], vs, xs, h, p, o => ⟨xs, rfl, by simpa using h, by simpa using p, o⟩
  | w :: ws, vs, xs, h, p, o => by
    obtain ⟨ys, e, p2, pp, o2⟩ := nhInsert_spec b (NanKept (vs ++ [w])) (kept_swap (vs ++ [w])) xs w
    obtain ⟨zs, e3, h3, p3, o3⟩ := nhInserts_spec b ws (vs ++ [w]) ys (pp (kept_append h w))
      (p2.trans (p.append_right [w])) (o2 o)
    refine ⟨zs, ?_, by simpa using h3, by simpa using p3, o3⟩
    simp only [nhInserts, e, bind, Except.bind]
    exact e3

theorem kept_nil : NanKept ([] : List (IdNum N)) [] :=
  ⟨rfl, by simp, fun i x h _ => absurd h.lt (by simp), fun i x h _ => absurd h.lt (by simp)⟩

theorem nhHeapify_spec (b : Bool) (vs : List (IdNum N)) :
    ∃ ys, nhHeapify b vs = .ok ys ∧ NanKept vs ys ∧ ys.Perm vs ∧ NanOrdered b ys := by
  obtain ⟨ys, h⟩ := nhInserts_spec b vs [] [] kept_nil (List.Perm.refl _) (by intro i p c _ h; simp at h)
  exact ⟨ys, by simpa [nhHeapify] using h⟩

/-- the first item goes before every item joined to it -/
theorem first_before {b : Bool} {vs xs : List (IdNum N)} (h : NanKept vs xs) (o : NanOrdered b xs) {m : N}
    (hm : xs[0]? = some (.num m)) {i : Nat} (hi : Joined vs i) : ∀ x, xs[i]? = some (.num x) → inOrder b m x := by
  induction hi with
  | first a ha => intro x hx; rw [hm] at hx; cases hx; exact inOrder_refl _ _
  | next p j a hp hj ha ih =>
    intro x hx
    have hj' : (j - 1) / 2 = p := by omega
    have hpl : p < xs.length := by rw [h.len]; exact hp.lt
    cases hxp : xs[p] with
    | nan k =>
      obtain ⟨c, hc⟩ := hp.num
      have := (h.nan p k).1 (by rw [List.getElem?_eq_getElem hpl, hxp])
      rw [hc] at this; cases this
    | num y =>
      have hy : xs[p]? = some (.num y) := by rw [List.getElem?_eq_getElem hpl, hxp]
      exact inOrder_trans (ih y hy) (o j y x (by omega) (by rw [hj']; exact hy) hx)

/-! ## Removing -/

theorem nhGet_concat {xs : List (IdNum N)} {i : Nat} (s : IdNum N) (h : i < xs.length) :
    nhGet (xs ++ [s]) i = .ok (nv xs i) := by
  rw [nhGet_eq (by simp; omega), nv_append_left h]

theorem nhSwap_concat {xs : List (IdNum N)} {i j : Nat} (s a b : IdNum N) (hi : i < xs.length)
    (hj : j < xs.length) : nhSwap (xs ++ [s]) i j a b = nhSwap xs i j a b ++ [s] := by
  simp only [nhSwap]
  rw [List.set_append_left _ _ hi, List.set_append_left _ _ (by simpa using hj)]

theorem nhPick_spec (b : Bool) (xs : List (IdNum N)) (s : IdNum N) (k : Nat) :
    nhPick b (xs ++ [s]) xs.length k = .ok none ∨
    ∃ c, nhPick b (xs ++ [s]) xs.length k = .ok (some c) ∧ c < xs.length ∧ k < c := by
  by_cases h1 : k * 2 + 2 ≥ xs.length
  · by_cases h2 : k * 2 + 1 ≥ xs.length
    · left; simp [nhPick, h1, h2]
    · right
      exact ⟨k * 2 + 1, by simp [nhPick, h1, h2], by omega, by omega⟩
  · right
    have hl : k * 2 + 1 < xs.length := by omega
    have hr : k * 2 + 2 < xs.length := by omega
    refine ⟨_, by simp only [nhPick, if_neg h1, nhGet_concat s hl, nhGet_concat s hr, bind, Except.bind]; rw [← apply_ite Except.ok, ← apply_ite some], ?_⟩
    constructor <;> split <;> split <;> omega

theorem nhDown_spec (b : Bool) (s : IdNum N) : ∀ (fuel : Nat) (xs : List (IdNum N)) (k : Nat),
    xs.length ≤ fuel + k →
    ∃ ys, nhDown b xs.length fuel (xs ++ [s]) k = .ok (ys ++ [s]) ∧ ys.Perm xs := by
  intro fuel
  induction fuel with
  | zero =>
    intro xs k hf
    exact ⟨xs, by rw [nhDown, if_neg (by omega)], List.Perm.refl _⟩
  | succ fuel ih =>
    intro xs k hf
    by_cases hk : k < xs.length
    · have hstep : nhDown b xs.length (fuel + 1) (xs ++ [s]) k =
          (do
            match ← nhPick b (xs ++ [s]) xs.length k with
            | none => .ok (xs ++ [s])
            | some c => do
              let child ← nhGet (xs ++ [s]) c
              if nhWrong b (nv xs k) child then
                nhDown b xs.length fuel (nhSwap (xs ++ [s]) k c (nv xs k) child) c
              else .ok (xs ++ [s])) := by
        rw [nhDown, if_pos hk]
        simp only [nhGet_concat s hk]
        rfl
      rcases nhPick_spec b xs s k with e | ⟨c, e, hc, hkc⟩
      · exact ⟨xs, by rw [hstep, e]; rfl, List.Perm.refl _⟩
      · have hstep2 : nhDown b xs.length (fuel + 1) (xs ++ [s]) k =
            if nhWrong b (nv xs k) (nv xs c) then
              nhDown b xs.length fuel (nhSwap xs k c (nv xs k) (nv xs c) ++ [s]) c
            else .ok (xs ++ [s]) := by
          rw [hstep, e]
          simp only [bind, Except.bind, nhGet_concat s hc, nhSwap_concat s _ _ hk hc]
        by_cases hw : nhWrong b (nv xs k) (nv xs c) = true
        · rw [if_pos hw] at hstep2
          obtain ⟨ys, e2, p⟩ := ih (nhSwap xs k c (nv xs k) (nv xs c)) c
            (by rw [length_nhSwap]; omega)
          rw [length_nhSwap] at e2
          exact ⟨ys, by rw [hstep2, e2], p.trans (nhSwap_perm hk hc)⟩
        · rw [if_neg hw] at hstep2
          exact ⟨xs, hstep2, List.Perm.refl _⟩
    · exact ⟨xs, by rw [nhDown, if_neg hk], List.Perm.refl _⟩

theorem nhRemove_start (b : Bool) {init : List (IdNum N)} {last v : IdNum N} (h : v ∈ init ++ [last]) :
    nhRemove b (init ++ [last]) v =
      (nhDown b init.length (init.length + 1)
        (init.set ((init ++ [last]).idxOf v) last ++ [if b then .num ⊥ else .num ⊤])
        ((init ++ [last]).idxOf v)).map (fun ws => (ws.dropLast, false)) := by
  have hi : (init ++ [last]).idxOf v < (init ++ [last]).length := List.idxOf_lt_length_iff.2 h
  simp only [List.length_append, List.length_singleton] at hi
  have hlast : nhGet (init ++ [last]) init.length = .ok last := by simp [nhGet]
  simp only [nhRemove, List.append_eq_nil_iff, List.cons_ne_self, and_false, if_false, h, if_true,
    List.length_append, List.length_singleton, Nat.add_sub_cancel, hlast, bind, Except.bind,
    reduceCtorEq]
  have hz : ((nhSwap (init ++ [last]) init.length ((init ++ [last]).idxOf v) last v).set init.length
      (if b = true then .num ⊥ else .num ⊤)) = init.set ((init ++ [last]).idxOf v) last ++
        [if b = true then .num ⊥ else .num ⊤] := by
    rw [nhSwap, List.set_append_right _ _ (le_refl _), Nat.sub_self, List.set_cons_zero]
    by_cases hd : (init ++ [last]).idxOf v < init.length
    · rw [List.set_append_left _ _ hd, List.set_append_right _ _ (by simp)]
      simp
    · have hd' : (init ++ [last]).idxOf v = init.length := by omega
      rw [hd', List.set_append_right _ _ (le_refl _), Nat.sub_self, List.set_cons_zero,
        List.set_append_right _ _ (le_refl _), Nat.sub_self, List.set_cons_zero,
        List.set_eq_of_length_le (le_refl _)]
  rw [hz]
  cases nhDown b init.length (init.length + 1) (init.set ((init ++ [last]).idxOf v) last ++
        [if b = true then .num ⊥ else .num ⊤]) ((init ++ [last]).idxOf v) <;> rfl

theorem nan_set_idxOf_perm {init : List (IdNum N)} {last v : IdNum N} (h : v ∈ init ++ [last]) :
    (init.set ((init ++ [last]).idxOf v) last).Perm ((init ++ [last]).erase v) := by
  by_cases hv : v ∈ init
  · have hi : init.idxOf v < init.length := List.idxOf_lt_length_iff.2 hv
    rw [List.idxOf_append_of_mem hv, List.erase_append_left _ hv, ← List.eraseIdx_idxOf_eq_erase]
    exact (List.set_perm_cons_eraseIdx hi last).trans (List.perm_append_singleton _ _).symm
  · have hl : v = last := by simpa [hv] using h
    subst hl
    rw [List.idxOf_append_of_notMem hv, List.erase_append_right _ hv]
    simp [List.set_eq_of_length_le]

theorem nhRemove_spec (b : Bool) (xs : List (IdNum N)) (v : IdNum N) :
    ∃ ys, nhRemove b xs v = .ok (ys, decide (v ∉ xs)) ∧ ys.Perm (xs.erase v) := by
  by_cases h : v ∈ xs
  · rcases List.eq_nil_or_concat xs with rfl | ⟨init, last, rfl⟩
    · simp at h
    · rw [List.concat_eq_append] at h ⊢
      rw [nhRemove_start b h]
      obtain ⟨ys, e, p⟩ := nhDown_spec b (if b then .num ⊥ else .num ⊤ : IdNum N) (init.length + 1)
        (init.set ((init ++ [last]).idxOf v) last) ((init ++ [last]).idxOf v) (by simp; omega)
      rw [List.length_set] at e
      rw [e]
      refine ⟨ys, ?_, p.trans (nan_set_idxOf_perm h)⟩
      rw [decide_eq_false (fun hc => hc h)]
      simp [Except.map]
  · refine ⟨xs, ?_, by rw [List.erase_of_not_mem h]⟩
    simp [nhRemove, h]

theorem nhExecs_bag (b : Bool) : ∀ (ops : List (NanHeapOp N)) (xs s : List (IdNum N)), xs.Perm s →
    ∃ ys, nhExecs b ops xs = .ok ((nanBag ops s).1, ys) ∧ ys.Perm (nanBag ops s).2
  | [], xs, s, h => ⟨xs, rfl, h⟩
  | .insert v :: ops, xs, s, h => by
    obtain ⟨ys, e, p, _⟩ := nhInsert_spec b (fun _ => True) (fun _ _ _ _ _ _ _ _ => trivial) xs v
    obtain ⟨zs, e2, p2⟩ := nhExecs_bag b ops ys (v :: s)
      (p.trans ((List.perm_append_singleton v xs).trans (h.cons v)))
    exact ⟨zs, by simp [nhExecs, nhExec, e, e2, nanBag, bind, Except.bind, Except.map], by simpa [nanBag] using p2⟩
  | .remove v :: ops, xs, s, h => by
    obtain ⟨ys, e, p⟩ := nhRemove_spec b xs v
    obtain ⟨zs, e2, p2⟩ := nhExecs_bag b ops ys (s.erase v) (p.trans (h.erase v))
    exact ⟨zs, by simp [nhExecs, nhExec, e, e2, nanBag, bind, Except.bind, Except.map, h.mem_iff],
      by simpa [nanBag] using p2⟩
  | .contains v :: ops, xs, s, h => by
    obtain ⟨zs, e2, p2⟩ := nhExecs_bag b ops xs s h
    exact ⟨zs, by simp [nhExecs, nhExec, e2, nanBag, bind, Except.bind, h.mem_iff], by simpa [nanBag] using p2⟩
  | .len :: ops, xs, s, h => by
    obtain ⟨zs, e2, p2⟩ := nhExecs_bag b ops xs s h
    exact ⟨zs, by simp [nhExecs, nhExec, e2, nanBag, bind, Except.bind, h.length_eq], by simpa [nanBag] using p2⟩

/-! ## Without `nan`: the model of BinHeap.lean -/

theorem nhWrong_num (b : Bool) (x y : N) : nhWrong b (.num x) (.num y) = bhWrong b x y := by
  cases b <;> simp [nhWrong, bhWrong, IdNum.lt]

theorem nhGet_map (xs : List N) (i : Nat) : nhGet (xs.map .num) i = (bhGet xs i).map .num := by
  simp only [nhGet, bhGet, List.getElem?_map]
  cases xs[i]? <;> rfl

theorem nhSwap_map (xs : List N) (i j : Nat) (a c : N) :
    nhSwap (xs.map .num) i j (.num a) (.num c) = (bhSwap xs i j a c).map .num := by
  simp [nhSwap, bhSwap, List.map_set]

theorem nhUp_map (b : Bool) : ∀ (fuel : Nat) (xs : List N) (k : Nat),
    nhUp b fuel (xs.map .num) k = (siftUp b fuel xs k).map (List.map .num)
  | 0, xs, k => by
    rw [nhUp, siftUp]
    split <;> rfl
  | fuel + 1, xs, k => by
    rw [nhUp, siftUp]
    by_cases h : k = 0
    · simp [h, Except.map]
    · simp only [h, if_false, nhGet_map]
      cases e1 : bhGet xs k with
      | error e => rfl
      | ok c =>
        cases e2 : bhGet xs ((k - 1) / 2) with
        | error e => rfl
        | ok p =>
          simp only [Except.map, bind, Except.bind, nhWrong_num, nhSwap_map]
          split
          · exact nhUp_map b fuel _ _
          · rfl

theorem nhInsert_map (b : Bool) (xs : List N) (v : N) :
    nhInsert b (xs.map .num) (.num v) = (bhInsert b xs (.num v)).map (List.map .num) := by
  have := nhUp_map b (xs.length + 1) (xs ++ [v]) xs.length
  simp only [List.map_append, List.map_cons, List.map_nil] at this
  simpa [nhInsert, bhInsert, numArg, bind, Except.bind] using this

theorem nhPick_map (b : Bool) (xs : List N) (l k : Nat) : nhPick b (xs.map .num) l k = pickChild b xs l k := by
  simp only [nhPick, pickChild, nhGet_map]
  split
  · rfl
  · cases e1 : bhGet xs (k * 2 + 1) with
    | error e => rfl
    | ok c =>
      cases e2 : bhGet xs (k * 2 + 2) with
      | error e => rfl
      | ok p => simp [Except.map, bind, Except.bind, IdNum.lt]

theorem nhDown_map (b : Bool) (l : Nat) : ∀ (fuel : Nat) (xs : List N) (k : Nat),
    nhDown b l fuel (xs.map .num) k = (siftDown b l fuel xs k).map (List.map .num)
  | 0, xs, k => by
    rw [nhDown, siftDown]
    split <;> rfl
  | fuel + 1, xs, k => by
    rw [nhDown, siftDown]
    by_cases h : k < l
    · simp only [h, if_true, nhGet_map, nhPick_map]
      cases e1 : bhGet xs k with
      | error e => rfl
      | ok c =>
        cases e2 : pickChild b xs l k with
        | error e => rfl
        | ok o =>
          cases o with
          | none => rfl
          | some d =>
            cases e3 : bhGet xs d with
            | error e => simp [Except.map, bind, Except.bind, e3]
            | ok p =>
              simp only [Except.map, bind, Except.bind, e3, nhWrong_num, nhSwap_map]
              split
              · exact nhDown_map b l fuel _ _
              · rfl
    · simp [h, Except.map]

theorem num_inj : Function.Injective (IdNum.num : N → IdNum N) := fun _ _ h => by cases h; rfl

theorem idxOf_num : ∀ (xs : List N) (v : N), (xs.map IdNum.num).idxOf (IdNum.num v) = xs.idxOf v
  | [], _ => rfl
  | x :: xs, v => by
    rw [List.map_cons, List.idxOf_cons, List.idxOf_cons, idxOf_num xs v]
    by_cases h : x = v
    · subst h; simp
    · have h' : ¬ IdNum.num x = IdNum.num v := fun e => h (num_inj e)
      rw [beq_false_of_ne h, beq_false_of_ne h']

theorem nhRemove_map (b : Bool) (xs : List N) (v : N) :
    nhRemove b (xs.map .num) (.num v) = (bhRemove b xs (.num v)).map fun p => (p.1.map .num, p.2) := by
  rcases List.eq_nil_or_concat xs with rfl | ⟨init, last, rfl⟩
  · rfl
  · rw [List.concat_eq_append]
    by_cases h : v ∈ init ++ [last]
    · have h' : IdNum.num v ∈ init.map IdNum.num ++ [IdNum.num last] := by
        have := List.mem_map_of_mem (f := IdNum.num) h
        simpa using this
      have hidx : (init.map IdNum.num ++ [IdNum.num last]).idxOf (IdNum.num v) = (init ++ [last]).idxOf v := by
        rw [← idxOf_num (init ++ [last]) v, List.map_append, List.map_cons, List.map_nil]
      have := nhDown_map b init.length (init.length + 1)
        (init.set ((init ++ [last]).idxOf v) last ++ [if b then ⊥ else ⊤]) ((init ++ [last]).idxOf v)
      rw [List.map_append, List.map_cons, List.map_nil, nhRemove_start b h', bhRemove_start b h, hidx, List.length_map]
      rw [List.map_append, List.map_set, List.map_cons, List.map_nil] at this
      rw [show (if b then IdNum.num ⊥ else IdNum.num ⊤ : IdNum N) = IdNum.num (if b then ⊥ else ⊤) by cases b <;> rfl, this]
      cases siftDown b init.length (init.length + 1)
        (init.set ((init ++ [last]).idxOf v) last ++ [if b then ⊥ else ⊤]) ((init ++ [last]).idxOf v) <;>
        simp [Except.map, List.map_dropLast]
    · rw [bhRemove_not_mem b h]
      have h' : IdNum.num v ∉ (init ++ [last]).map IdNum.num := by
        intro hc
        exact h ((List.mem_map_of_injective num_inj).1 hc)
      rw [nhRemove, if_neg (by simp), if_neg h']; rfl

theorem nhFirst_map (xs : List N) : nhFirst (xs.map .num) = (bhFirst xs).map .num := by
  cases xs with
  | nil => rfl
  | cons x xs => simp [nhFirst, bhFirst, nhGet, bhGet, Except.map]

theorem nhExtreme_foldl (b : Bool) : ∀ (xs : List N) (x : N),
    (xs.map .num).foldl (fun m y => if nhWrong b y m then y else m) (.num x) =
      IdNum.num (xs.foldl (if b then max else min) x)
  | [], x => rfl
  | y :: ys, x => by
    simp only [List.map_cons, List.foldl_cons, nhWrong_num]
    have : (if bhWrong b y x = true then IdNum.num y else IdNum.num x) = IdNum.num ((if b then max else min) x y) := by
      cases b <;> simp only [bhWrong, if_true, if_false, Bool.false_eq_true, decide_eq_true_eq]
      · rw [min_def]; split <;> rename_i h
        · rw [if_neg (not_le.2 h)]
        · rw [if_pos (not_lt.1 h)]
      · rw [max_def]; split <;> rename_i h
        · rw [if_pos h.le]
        · split <;> rename_i h2
          · rw [le_antisymm h2 (not_lt.1 h)]
          · rfl
    rw [this]
    exact nhExtreme_foldl b ys _

theorem nhFarthest_map (b : Bool) (xs : List N) : nhFarthest b (xs.map .num) = (bhFarthest b xs).map .num := by
  cases xs with
  | nil => simp [nhFarthest, bhFarthest, Except.map]
  | cons x xs =>
    simp only [nhFarthest, bhFarthest, List.length_map, List.length_cons, Nat.add_eq_zero_iff, Nat.one_ne_zero, and_false,
      if_false, reduceCtorEq, ← List.map_drop]
    cases (x :: xs).drop ((xs.length + 1) / 2) with
    | nil => rfl
    | cons y ys => simp only [List.map_cons, nhExtreme, pyExtreme, nhExtreme_foldl, Except.map]

end Extra
