import Verif.Lists.SkipNanProofs
import Mathlib.Order.Fin.Basic

/-!
# C122: `nan` in a `SkipList`

Full statement: whatever numbers are inserted, `in` answers whether a number is held, no number is held twice, and the
numbers come out in increasing order.  With `nan` it is false: `C122_nan`.
-/

namespace Extra
variable {N : Type} [LinearOrder N] [OrderBot N]

/-! ## Without `nan` -/

/-- Without `nan` these functions answer as the model with pointers does, whatever the coin flips. -/
theorem C122_without_nan_partial (ops : List (NsOp N)) (h : ∀ op ∈ ops, op.toSk.number ≠ some ⊥) :
    (nsExecs (ops.map NsOp.lift) []).1.map NsRes.toSk = (skExecs (ops.map NsOp.toSk) SkipList.new).1 :=
  ns_run ops new_inv h

example : (nsExecs ([.insert 5 1, .insert 3 0, .insert 5 2, .contains 3, .contains 4, .toList, .remove 5, .remove 6,
      .toList].map NsOp.lift) []).1 =
    [.unit, .unit, .unit, .bool true, .bool false, .list [.num (3 : Fin 10), .num 5], .unit, .unit, .list [.num 3]] := by
  decide +kernel

/-! ## With `nan` -/

/-- What is left of the order, after any calls with numbers other than `-inf`: if of two numbers the second is not greater
than the first, there is a `nan` between them that is on all the levels of the second. -/
theorem C122_between_partial (ops : List (NsOp (PyNum N))) (h : ∀ op ∈ ops, op.number ≠ some (.num ⊥))
    (as bs cs : List (PyNum N × Nat)) (x y : N) (hx hy : Nat) (he : (nsExecs ops []).2 = as ++ (.num x, hx) :: bs ++ (.num y, hy) :: cs) (hyx : y ≤ x) :
    ∃ e ∈ bs, e.1 = .nan ∧ hy ≤ e.2 := by
  have J := (ns_run_between ops h (st := []) (by intro i j x hx y hy _ hi; simp at hi)).1
  rw [he] at J
  obtain ⟨k, g, h1, h2, h3, h4⟩ := J as.length (as.length + 1 + bs.length) x hx y hy (by omega) (by simp)
    (by
      rw [List.getElem?_append_right (by simp; omega)]
      rw [show as.length + 1 + bs.length - (as ++ (PyNum.num x, hx) :: bs).length = 0 by simp; omega]
      rfl) hyx
  rw [List.append_assoc, List.getElem?_append_right (by omega)] at h3
  obtain ⟨m, hm⟩ : ∃ m, k - as.length = m + 1 := ⟨_, (Nat.succ_pred (by omega)).symm⟩
  rw [hm, List.cons_append, List.getElem?_cons_succ, List.getElem?_append_left (by omega)] at h3
  exact ⟨_, List.mem_of_getElem? h3, rfl, h4⟩

/-- Exactly what is found, after any calls with numbers other than `-inf`: a number is found if there is an entry with it such
that each `nan` before is on fewer levels than some number between the `nan` and the entry, or the entry itself, that is not
greater. -/
theorem C122_found_partial (ops : List (NsOp (PyNum N))) (h : ∀ op ∈ ops, op.number ≠ some (.num ⊥)) (v : N) (hv : v ≠ ⊥) :
    nsContains (.num v) (nsExecs ops []).2 = true ↔
      ∃ j heads : Nat, (nsExecs ops []).2[j]? = some (.num v, heads) ∧
        ∀ k nanHeads : Nat, k < j → (nsExecs ops []).2[k]? = some (.nan, nanHeads) →
          ∃ (c : Nat) (x : N) (xHeads : Nat), k < c ∧ c ≤ j ∧ (nsExecs ops []).2[c]? = some (.num x, xHeads) ∧ x ≤ v ∧
            nanHeads < xHeads := by
  rw [nsContains_iff hv (ns_run_between ops h (by intro i j x hx y hy _ hi; simp at hi)).1]
  constructor
  · rintro ⟨j, g, h1, h2⟩
    refine ⟨j, g, h1, fun k n hk hn => ?_⟩
    obtain ⟨c, x, xh, a1, a2, a3⟩ := h2 k n (by omega) hn
    exact ⟨c, x, xh, a1, by omega, a3⟩
  · rintro ⟨j, g, h1, h2⟩
    refine ⟨j, g, h1, fun k n hk hn => ?_⟩
    have hkj : k ≠ j := by
      rintro rfl
      rw [h1] at hn
      cases hn
    obtain ⟨c, x, xh, a1, a2, a3⟩ := h2 k n (by omega) hn
    exact ⟨c, x, xh, a1, by omega, a3⟩

/-- After any calls with numbers other than `-inf`, `remove` takes out the first entry with the number if the number is
found, and nothing otherwise; in particular the lists of the levels are never damaged. -/
theorem C122_remove_partial (ops : List (NsOp (PyNum N))) (h : ∀ op ∈ ops, op.number ≠ some (.num ⊥)) (v : N) (hv : v ≠ ⊥) :
    (nsContains (.num v) (nsExecs ops []).2 = true →
      ∃ as heads bs, (nsExecs ops []).2 = as ++ (.num v, heads) :: bs ∧ (∀ e ∈ as, e.1 ≠ .num v) ∧
        nsRemove (.num v) (nsExecs ops []).2 = (.unit, as ++ bs)) ∧
    (nsContains (.num v) (nsExecs ops []).2 = false →
      nsRemove (.num v) (nsExecs ops []).2 = (.unit, (nsExecs ops []).2)) := by
  have J := (ns_run_between ops h (st := []) (by intro i j x hx y hy _ hi; simp at hi)).1
  generalize (nsExecs ops []).2 = st at *
  refine ⟨fun hc => ?_, fun hc => by rw [nsRemove, hc]; rfl⟩
  obtain ⟨k, hk, h1, h2, h3⟩ := nsRemove_found hv J hc
  obtain ⟨hlt, he⟩ := List.getElem?_eq_some_iff.1 h1
  refine ⟨st.take k, hk, st.drop (k + 1), ?_, ?_, by rw [h3, List.eraseIdx_eq_take_drop_succ]⟩
  · rw [← he, List.getElem_cons_drop, List.take_append_drop]
  · intro e hm hev
    obtain ⟨t, ht, rfl⟩ := List.mem_take_iff_getElem.1 hm
    apply h2 t (by omega) st[t].2
    rw [List.getElem?_eq_getElem (by omega), ← hev]

/-- No call of a history with numbers other than `-inf` damages the lists of the levels. -/
theorem C122_not_damaged_partial (ops : List (NsOp (PyNum N))) (h : ∀ op ∈ ops, op.number ≠ some (.num ⊥)) :
    NsRes.damaged ∉ (nsExecs ops []).1 :=
  (ns_run_between ops h (by intro i j x hx y hy _ hi; simp at hi)).2

/-- A number that has just been inserted is found, whatever the list has been through. -/
theorem C122_just_inserted_partial (x : N) (heads : Nat) (st : List (PyNum N × Nat)) :
    nsContains (.num x) (nsInsert (.num x) heads st) = true := nsContains_insert x heads st

/-- `nan` is never found and always goes to the front, so that each time it is inserted there is one more. -/
theorem C122_nan_first (heads : Nat) (st : List (PyNum N × Nat)) :
    nsContains .nan st = false ∧ nsInsert .nan heads st = (.nan, heads) :: st := by
  have hs : nsSearch .nan st = 0 := nsDown_nan st _
  have hc : nsContains .nan st = false := by rw [nsContains, hs]; rfl
  refine ⟨hc, ?_⟩
  rw [nsInsert, hc, hs]
  rfl

/-- A `nan` in front that is on all levels hides everything: no number is found, and each number that is inserted goes
to the front, also when it is there. -/
theorem C122_hidden (h : Nat) (st : List (PyNum N × Nat)) (hh : ∀ e ∈ st, e.2 ≤ h) (x : N) (hx : x ≠ ⊥) (heads : Nat) :
    nsContains (.num x) ((.nan, h) :: st) = false ∧
    nsInsert (.num x) heads ((.nan, h) :: st) = (.num x, heads) :: (.nan, h) :: st := by
  have hl : nsLevels ((PyNum.nan, h) :: st) ≤ h + 1 := by
    have : (st.map (·.2)).foldr max 0 ≤ h := by
      clear hx
      induction st with
      | nil => exact Nat.zero_le _
      | cons e es ih =>
        simp only [List.map_cons, List.foldr_cons]
        exact Nat.max_le.2 ⟨hh e List.mem_cons_self, ih fun a ha => hh a (List.mem_cons_of_mem _ ha)⟩
    simp only [nsLevels, List.map_cons, List.foldr_cons]
    omega
  have hs : nsSearch (.num x) ((PyNum.nan, h) :: st) = 0 := nsDown_head_nan _ _ _ hl
  have hc : nsContains (.num x) ((PyNum.nan, h) :: st) = false := by
    rw [nsContains, hs]
    simpa [nsFound, PyNum.eq] using hx.symm
  refine ⟨hc, ?_⟩
  rw [nsInsert, hc, hs]
  rfl

/-- **The full statement is false.**  After inserting 3, 5 and `nan`, with no heads, 3 is not found; inserting it again
makes it be held twice, and what comes out is 3, `nan`, 3, 5.  With a `nan` that is not on all levels, a number that is on
more levels is still found, and the one before it is not. -/
theorem C122_nan :
    (nsExecs [.insert (.num 3) 0, .insert (.num 5) 0, .insert .nan 0, .contains (.num 3), .insert (.num 3) 0,
        .contains (.num 3), .contains (.num 5), .toList] ([] : List (PyNum (Fin 10) × Nat))).1 =
      [.unit, .unit, .unit, .bool false, .unit, .bool true, .bool false, .list [.num 3, .nan, .num 3, .num 5]] ∧
    (nsExecs [.insert (.num 3) 0, .insert (.num 5) 1, .insert (.num 7) 0, .insert .nan 0, .contains (.num 3),
        .contains (.num 5), .contains (.num 7)] ([] : List (PyNum (Fin 10) × Nat))).1 =
      [.unit, .unit, .unit, .unit, .bool false, .bool true, .bool true] := by decide +kernel

example : nsInsert (.num 4) 2 [(.num 3, 0), (.nan, 1), (.num 5, 1), (.num (2 : Fin 10), 0)] =
    [(.num 3, 0), (.num 4, 2), (.nan, 1), (.num 5, 1), (.num 2, 0)] := by decide +kernel

example : nsContains (.num (3 : Fin 10)) [(.nan, 1), (.num 3, 1), (.num 5, 0)] = false := by decide +kernel

/-- such a history: the second 3 goes in front of the `nan`, `remove(3)` takes it out, and the other is as hidden as before -/
def nanHistory : List (NsOp (PyNum (Fin 10))) :=
  [.insert (.num 3) 0, .insert (.num 5) 1, .insert .nan 0, .insert (.num 3) 0, .toList, .remove (.num 3),
   .contains (.num 3), .contains (.num 5), .remove (.num 3), .toList]

example : ∀ op ∈ nanHistory, op.number ≠ some (.num ⊥) := by decide +kernel

example : (nsExecs nanHistory []).1 =
    [.unit, .unit, .unit, .unit, .list [.num 3, .nan, .num 3, .num 5], .unit, .bool false, .bool true, .unit,
     .list [.nan, .num 3, .num 5]] := by decide +kernel

end Extra
