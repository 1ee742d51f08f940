import Verif.Lists.Extend
import Mathlib.Tactic.Ring
import Mathlib.Tactic.ByContra

/-! # Contract of slicing -/

set_option linter.unusedSectionVars false
set_option linter.unusedSimpArgs false
attribute [local irreducible] Extra.upd

namespace Extra
variable {V X : Type} [PyData V] [Inhabited X]

/-- the elements of `zs`, numbered from `c`, whose number is in `idxs` -/
def pick (idxs : List Int) : Nat → List V → List V
  | _, [] => []
  | c, z :: zs => if (c : Int) ∈ idxs then z :: pick idxs (c + 1) zs else pick idxs (c + 1) zs

theorem sliceLoop_spec {k : Kind} {out : Addr} (idxs : List Int) (e : Option Addr) :
    ∀ (bs os cs : List Addr) {h : Heap V X} {ys zs ws : List V} {c : Nat} {prev curr : Option Addr},
    Rep k h out os ys → Src h (bs ++ cs) (zs ++ ws) e → bs.length = zs.length →
    (bs ≠ [] → curr = bs.head?) → (prev = os.getLast? ∨ os = []) →
    (∀ a ∈ bs ++ cs, ¬ Own k h out os a) →
    ∃ h' os', sliceLoop k out idxs bs.length c prev curr h = (.ok (), h') ∧
      Rep k h' out os' (ys ++ pick idxs c zs) ∧ Mut k h h' out os os' ∧ h'.nLists = h.nLists
  | [], os, cs, h, ys, zs, ws, c, prev, curr, r, s, hl, hc, hp, hd => by
    have : zs = [] := List.eq_nil_of_length_eq_zero hl.symm
    subst this
    exact ⟨h, os, by simp [sliceLoop], by simpa [pick] using r, Mut.refl _ _ _ _, rfl⟩
  | b :: bs, os, cs, h, ys, zs, ws, c, prev, curr, r, s, hl, hc, hp, hd => by
    obtain ⟨z, zs, rfl⟩ := List.exists_cons_of_ne_nil (l := zs) (by rintro rfl; simp at hl)
    have hc := hc (by simp)
    simp only [List.head?_cons] at hc
    subst hc
    simp only [List.length_cons, Nat.add_right_cancel_iff] at hl
    simp only [List.cons_append] at s hd
    obtain ⟨d, nx, nz, s'⟩ := Src.uncons s
    by_cases hi : (c : Int) ∈ idxs
    · obtain ⟨h1, m, os1, e1, r1, m1, g1, l1, c1⟩ :=
        insertValue_spec (prev := prev) (as := os) (bs := []) (ys := ys) (zs := []) z
          (by simpa using r) r.length_eq (by simpa using hp)
      rw [List.append_nil] at m1 l1
      rw [nz] at r1
      have hlast : os1.getLast? = some m := by
        rw [List.getLast?_eq_getElem?, l1]; simpa using g1
      have nx1 : (h1.node b).next = (bs ++ cs).head?.or e := by
        rw [m1.frame.node b (s.bound b (by simp)) (hd b (by simp))]; exact nx
      have s1 := (s.frame m1.frame hd).uncons.2.2.2
      have hd1 : ∀ a ∈ bs ++ cs, ¬ Own k h1 out os1 a := by
        intro a ha hx
        rcases m1.own a hx with h2 | h2
        · exact hd a (List.mem_cons_of_mem _ ha) h2
        · exact Nat.not_lt.2 h2 (s'.bound a ha)
      obtain ⟨h2, os2, e2, r2, m2, c2⟩ := sliceLoop_spec idxs e bs os1 cs (c := c + 1)
        (prev := some m) (curr := (h1.node b).next) r1 s1 hl
        (by intro hne; rw [nx1]; cases bs <;> simp_all) (Or.inl hlast.symm) hd1
      refine ⟨h2, os2, ?_, by simpa [pick, hi] using r2, m1.trans m2, by omega⟩
      simp only [List.length_cons, sliceLoop, hi, if_true, run_bind, run_getData, d, assertSome,
        run_pure, e1, run_getNext, e2]
    · obtain ⟨h2, os2, e2, r2, m2, c2⟩ := sliceLoop_spec idxs e bs os cs (c := c + 1)
        (prev := prev) (curr := (h.node b).next) r s' hl
        (by intro hne; rw [nx]; cases bs <;> simp_all) hp
        (fun a ha => hd a (List.mem_cons_of_mem _ ha))
      refine ⟨h2, os2, ?_, by simpa [pick, hi] using r2, m2, by omega⟩
      simp only [List.length_cons, sliceLoop, hi, if_false, run_bind, run_getNext, e2]

/-! ## the numbers of a `range` -/

theorem mem_pyRangeAux_pos {e st : Int} (hst : 0 < st) : ∀ (fuel : Nat) (i x : Int),
    x ∈ pyRangeAux e st fuel i ↔ ∃ j : Nat, j < fuel ∧ x = i + j * st ∧ x < e
  | 0, i, x => by simp [pyRangeAux]
  | fuel + 1, i, x => by
    have hn : ¬ st < 0 := by omega
    rw [pyRangeAux]
    by_cases hi : i < e
    · simp only [hst, hi, hn, true_and, false_and, or_false, if_true, List.mem_cons,
        mem_pyRangeAux_pos hst fuel]
      constructor
      · rintro (rfl | ⟨j, hj, rfl, hx⟩)
        · exact ⟨0, by omega, by simp, hi⟩
        · exact ⟨j + 1, by omega, by push_cast; ring, hx⟩
      · rintro ⟨j, hj, rfl, hx⟩
        cases j with
        | zero => left; simp
        | succ j => right; exact ⟨j, by omega, by push_cast; ring, hx⟩
    · simp only [hi, hn, and_false, false_and, or_false, if_false, List.not_mem_nil, false_iff]
      rintro ⟨j, hj, rfl, hx⟩
      have : 0 ≤ (j : Int) * st := Int.mul_nonneg (by omega) (by omega)
      omega

theorem mem_pyRangeAux_neg {e st : Int} (hst : st < 0) : ∀ (fuel : Nat) (i x : Int),
    x ∈ pyRangeAux e st fuel i ↔ ∃ j : Nat, j < fuel ∧ x = i + j * st ∧ e < x
  | 0, i, x => by simp [pyRangeAux]
  | fuel + 1, i, x => by
    have hn : ¬ 0 < st := by omega
    rw [pyRangeAux]
    by_cases hi : e < i
    · simp only [hst, hi, hn, true_and, false_and, false_or, if_true, List.mem_cons,
        mem_pyRangeAux_neg hst fuel, and_true]
      constructor
      · rintro (rfl | ⟨j, hj, rfl, hx⟩)
        · exact ⟨0, by omega, by simp, hi⟩
        · exact ⟨j + 1, by omega, by push_cast; ring, hx⟩
      · rintro ⟨j, hj, rfl, hx⟩
        cases j with
        | zero => left; simp
        | succ j => right; exact ⟨j, by omega, by push_cast; ring, hx⟩
    · simp only [hi, hn, and_false, false_and, or_false, if_false, List.not_mem_nil, false_iff]
      rintro ⟨j, hj, rfl, hx⟩
      have : 0 ≤ (j : Int) * -st := Int.mul_nonneg (by omega) (by omega)
      rw [Int.mul_neg] at this
      omega

theorem mem_pyRange_pos {s e st x : Int} (hst : 0 < st) :
    x ∈ pyRange s e st ↔ s ≤ x ∧ x < e ∧ (x - s) % st = 0 := by
  rw [pyRange, mem_pyRangeAux_pos hst]
  constructor
  · rintro ⟨j, hj, rfl, hx⟩
    have : 0 ≤ (j : Int) * st := Int.mul_nonneg (by omega) (by omega)
    exact ⟨by omega, hx, by rw [show s + j * st - s = j * st by ring]; exact Int.mul_emod_left _ _⟩
  · rintro ⟨h1, h2, h3⟩
    obtain ⟨q, hq⟩ := Int.dvd_of_emod_eq_zero h3
    have hq0 : 0 ≤ q := by
      by_contra hneg
      have : 0 ≤ st * (-q - 1) := Int.mul_nonneg (by omega) (by omega)
      have e1 : st * (-q - 1) = -(st * q) - st := by ring
      omega
    obtain ⟨j, rfl⟩ := Int.eq_ofNat_of_zero_le hq0
    refine ⟨j, ?_, by rw [Int.mul_comm]; omega, h2⟩
    have : 0 ≤ (st - 1) * (j : Int) := Int.mul_nonneg (by omega) (by omega)
    have e1 : (st - 1) * (j : Int) = st * j - j := by ring
    omega

theorem mem_pyRange_neg {s e st x : Int} (hst : st < 0) :
    x ∈ pyRange s e st ↔ x ≤ s ∧ e < x ∧ (s - x) % (-st) = 0 := by
  rw [pyRange, mem_pyRangeAux_neg hst]
  constructor
  · rintro ⟨j, hj, rfl, hx⟩
    have : 0 ≤ (j : Int) * -st := Int.mul_nonneg (by omega) (by omega)
    rw [Int.mul_neg] at this
    exact ⟨by omega, hx, by
      rw [show s - (s + j * st) = j * -st by ring]; exact Int.mul_emod_left _ _⟩
  · rintro ⟨h1, h2, h3⟩
    obtain ⟨q, hq⟩ := Int.dvd_of_emod_eq_zero h3
    have hq0 : 0 ≤ q := by
      by_contra hneg
      have : 0 ≤ -st * (-q - 1) := Int.mul_nonneg (by omega) (by omega)
      have e1 : -st * (-q - 1) = -(-st * q) - -st := by ring
      omega
    obtain ⟨j, rfl⟩ := Int.eq_ofNat_of_zero_le hq0
    have e2 : (j : Int) * st = -(-st * j) := by ring
    refine ⟨j, ?_, by rw [e2]; omega, h2⟩
    have : 0 ≤ (-st - 1) * (j : Int) := Int.mul_nonneg (by omega) (by omega)
    have e1 : (-st - 1) * (j : Int) = -st * j - j := by ring
    omega

theorem pyRangeAux_sorted_pos {e st : Int} (hst : 0 < st) : ∀ (fuel : Nat) (i : Int),
    (pyRangeAux e st fuel i).Pairwise (· < ·)
  | 0, i => by simp [pyRangeAux]
  | fuel + 1, i => by
    rw [pyRangeAux]
    split
    · refine List.pairwise_cons.2 ⟨fun x hx => ?_, pyRangeAux_sorted_pos hst fuel _⟩
      obtain ⟨j, _, rfl, _⟩ := (mem_pyRangeAux_pos hst _ _ _).1 hx
      have : 0 ≤ (j : Int) * st := Int.mul_nonneg (by omega) (by omega)
      omega
    · simp

theorem pyRangeAux_sorted_neg {e st : Int} (hst : st < 0) : ∀ (fuel : Nat) (i : Int),
    (pyRangeAux e st fuel i).Pairwise (· > ·)
  | 0, i => by simp [pyRangeAux]
  | fuel + 1, i => by
    rw [pyRangeAux]
    split
    · refine List.pairwise_cons.2 ⟨fun x hx => ?_, pyRangeAux_sorted_neg hst fuel _⟩
      obtain ⟨j, _, rfl, _⟩ := (mem_pyRangeAux_neg hst _ _ _).1 hx
      have : 0 ≤ (j : Int) * -st := Int.mul_nonneg (by omega) (by omega)
      rw [Int.mul_neg] at this
      omega
    · simp

theorem le_getLast {r : Int → Int → Prop} {L : List Int} (hL : L.Pairwise r) {m x : Int}
    (hm : L.getLast? = some m) (hx : x ∈ L) : x = m ∨ r x m := by
  rcases List.eq_nil_or_concat L with rfl | ⟨L, q, rfl⟩
  · simp at hx
  · simp at hm hx
    subst hm
    rcases hx with hx | hx
    · right
      rw [List.concat_eq_append, List.pairwise_append] at hL
      exact hL.2.2 x hx q (by simp)
    · exact Or.inl hx

/-! ## what the loop collects -/

theorem pick_none {idxs : List Int} : ∀ {c : Nat} {zs : List V},
    (∀ j, j < zs.length → ((c + j : Nat) : Int) ∉ idxs) → pick idxs c zs = []
  | _, [], _ => rfl
  | c, z :: zs, h => by
    have h0 := h 0 (by simp)
    simp only [Nat.add_zero] at h0
    rw [pick, if_neg h0]
    exact pick_none (fun j hj => by
      have := h (j + 1) (by simpa using hj)
      rwa [show c + (j + 1) = c + 1 + j by omega] at this)

theorem pick_append (idxs : List Int) : ∀ (c : Nat) (ys zs : List V),
    pick idxs c (ys ++ zs) = pick idxs c ys ++ pick idxs (c + ys.length) zs
  | c, [], zs => by simp [pick]
  | c, y :: ys, zs => by
    have ih := pick_append idxs (c + 1) ys zs
    rw [show c + 1 + ys.length = c + (ys.length + 1) by omega] at ih
    simp only [List.cons_append, pick, ih, List.length_cons]
    split <;> simp

theorem pick_filter (idxs : List Int) : ∀ (c : Nat) (zs : List V),
    pick idxs c zs = (List.range zs.length).filterMap
      (fun x => if ((c + x : Nat) : Int) ∈ idxs then zs[x]? else none)
  | c, [] => by simp [pick]
  | c, z :: zs => by
    have ih := pick_filter idxs (c + 1) zs
    rw [List.length_cons, List.range_succ_eq_map, List.filterMap_cons]
    have e : ∀ x, c + 1 + x = c + (x + 1) := fun x => by omega
    simp only [e] at ih
    by_cases hi : (c : Int) ∈ idxs
    · simp [pick, hi, ih, List.filterMap_map, Function.comp_def]
    · simp [pick, hi, ih, List.filterMap_map, Function.comp_def]

/-- with increasing numbers the loop collects all the chosen elements -/
theorem pick_take {idxs : List Int} (hs : idxs.Pairwise (· < ·)) (xs : List V)
    (hlt : ∀ x ∈ idxs, x < (xs.length : Int)) :
    pick idxs 0 (xs.take ((idxs.getLast?.getD (-1)) + 1).toNat) = pick idxs 0 xs := by
  conv_rhs => rw [← List.take_append_drop ((idxs.getLast?.getD (-1)) + 1).toNat xs]
  rw [pick_append, pick_none (zs := xs.drop _), List.append_nil]
  intro j hj hm
  cases hl : idxs.getLast? with
  | none => rw [List.getLast?_eq_none_iff] at hl; subst hl; simp at hm
  | some m =>
    rw [hl] at hm hj
    have hml := hlt m (List.mem_of_getLast? hl)
    simp only [Option.getD_some, List.length_take, List.length_drop] at hm hj
    rcases le_getLast hs hl hm with h1 | h1 <;> omega

/-- with decreasing numbers the loop collects the element with the smallest number -/
theorem pick_take_desc {idxs : List Int} (hs : idxs.Pairwise (· > ·)) (xs : List V)
    (h0 : ∀ x ∈ idxs, 0 ≤ x) (hlt : ∀ x ∈ idxs, x < (xs.length : Int)) :
    pick idxs 0 (xs.take ((idxs.getLast?.getD (-1)) + 1).toNat) =
      (idxs.getLast?.bind (fun m => xs[m.toNat]?)).toList := by
  cases hl : idxs.getLast? with
  | none => simp [pick]
  | some m =>
    have hm := List.mem_of_getLast? hl
    have hm0 := h0 m hm
    have hml := hlt m hm
    obtain ⟨n, rfl⟩ := Int.eq_ofNat_of_zero_le hm0
    have hn : n < xs.length := by omega
    simp only [Option.getD_some, Option.bind_some, Int.toNat_natCast]
    have e1 : ((n : Int) + 1).toNat = n + 1 := by omega
    rw [e1, List.take_add_one, pick_append, pick_none (zs := xs.take n)]
    · have e2 : 0 + (xs.take n).length = n := by simp; omega
      rw [e2, List.getElem?_eq_getElem hn]
      simp [pick, hm]
    · intro j hj hx
      simp only [List.length_take] at hj
      rcases le_getLast hs hl hx with h1 | h1 <;> omega

/-- `ll[start:stop:step]`, linked and doubly linked lists -/
theorem getSlice_spec {k : Kind} (hk : k ≠ .cll) {h : Heap V X} {l : Addr} {ns : List Addr}
    {xs : List V} (r : Rep k h l ns xs) (start stop step : Option Int) :
    match sliceIndices start stop step xs.length with
    | .ok (s, e, st) =>
      ((pyRange s e st).getLast?.getD (-1)) < (xs.length : Int) →
      ∃ h' l' ns', getSlice k l start stop step h = (.ok l', h') ∧
        Built k h h' l' ns'
          (pick (pyRange s e st) 0 (xs.take (((pyRange s e st).getLast?.getD (-1)) + 1).toNat))
    | .error er => getSlice k l start stop step h = (.error er, h) := by
  have hv : validateIndex k l (.slice start stop step) true (decide (k ≠ .cll)) h = (.ok (), h) := by
    simp [validateIndex, hk]
  have hl : (h.lobj l).length = xs.length := by rw [r.len, r.length_eq]
  cases hs : sliceIndices start stop step xs.length with
  | error er =>
    simp only [getSlice, run_bind, hv, run_getList, hl, hs]
    rfl
  | ok t =>
    obtain ⟨s, e, st⟩ := t
    intro hlt
    generalize hm : (((pyRange s e st).getLast?.getD (-1)) + 1).toNat = m
    have hmle : m ≤ xs.length := by omega
    obtain ⟨h1, e1, b1⟩ := newList_built k h
    have r1 := r.frame b1.frame (by simp) (by simp)
    obtain ⟨as, bs, rfl, ha⟩ := split_at_len ns (i := m) (by rw [r.length_eq]; exact hmle)
    obtain ⟨ys, zs, rfl, hy⟩ := split_at_len xs hmle
    obtain ⟨h2, os, e2, r2, m2, _⟩ := sliceLoop_spec (pyRange s e st) (endOf k (as ++ bs)) as []
      bs (ys := []) (zs := ys) (ws := zs) (c := 0) (prev := none) (curr := (h.lobj l).head)
      b1.rep r1.src (ha.trans hy.symm)
      (by intro hne; rw [r.head (by simp [hne])]; cases as <;> simp_all) (Or.inr rfl) (by
      intro a ha ho
      exact Nat.not_lt.2 (b1.own a ho) (r.bound a ha))
    refine ⟨h2, _, os, ?_, b1.mut m2 ?_⟩
    · simp only [getSlice, run_bind, hv, run_getList, hl, hs, run_lift_ok, e1, hm, ← ha, e2,
        run_pure]
    · rw [← hy, List.take_left]; simpa using r2

end Extra
