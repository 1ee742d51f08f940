import Verif.Props.Mixed
import Verif.Lists.Ring

/-!
# C100, continued: changing calls on a `LinkedList()` made from a `CircularLinkedList()`

The reference is `plainCall` of `Props/Mixed.lean`: what the call does on a Python list.
-/

set_option linter.unusedSectionVars false

namespace Extra
variable {V X : Type} [PyData V] [Inhabited X]
variable {h : Heap V X} {l : Nat} {ns : List Nat} {xs : List V} {e : Option Nat}

private theorem ring_delItem (r : RingRep h l ns xs e) (i : Idx) :
    ∃ h' ns', delItem .ll l i h = ((plainCall (.delItem i) xs).1, h') ∧
      RingRep h' l ns' (plainCall (.delItem i) xs).2 e := by
  simp only [delItem, run_bind, r.validateIndex, plainCall]
  cases hp : placeOf xs.length i with
  | error e => exact ⟨h, ns, rfl, r⟩
  | ok j =>
    cases i with
    | slice s t u => cases hp
    | other => cases hp
    | int i =>
      simp only [placeOf] at hp
      by_cases hi : 0 ≤ i ∧ i ≤ (xs.length : Int)
      · rw [if_pos hi] at hp
        cases hp
        by_cases he : i = (xs.length : Int)
        · refine ⟨h, ns, ?_, ?_⟩
          · simp [r.lenobj, he]
          · simpa [he] using r
        · obtain ⟨h', ns', e', r'⟩ := r.removeIdx (i := i.toNat) (by omega)
          have h2 : i.toNat ≠ xs.length := by omega
          refine ⟨h', ns', ?_, ?_⟩
          · simp [r.lenobj, he, Idx.toNat, e', h2]
          · simpa only [if_neg h2] using r'
      · rw [if_neg hi] at hp; cases hp

private theorem ring_step (r : RingRep h l ns xs e) (op : XOp V) :
    ∃ h' ns' e', ringStep l op h = ((plainCall op xs).1, h') ∧
      RingRep h' l ns' (plainCall op xs).2 e' := by
  cases op with
  | addFront it =>
    simp only [ringStep, addFront, run_bind, plainCall]
    cases hv : validateItem it with
    | error e => exact ⟨h, ns, _, rfl, r⟩
    | ok v =>
      obtain ⟨h', ns', e', e1, r1⟩ := r.insertAt (Nat.zero_le _) v
      exact ⟨h', ns', e', e1, by simpa using r1⟩
  | addEnd it =>
    simp only [ringStep, addEnd, run_bind, plainCall]
    cases hv : validateItem it with
    | error e => exact ⟨h, ns, _, rfl, r⟩
    | ok v =>
      simp only [run_lift_ok, llLen, run_bind, run_getList, run_pure, r.lenobj]
      obtain ⟨h', ns', e', e1, r1⟩ := r.insertAt (Nat.le_refl _) v
      exact ⟨h', ns', e', e1, by simpa using r1⟩
  | insert i it =>
    simp only [ringStep, insert, run_bind, plainCall, r.validateIndex]
    cases hp : placeOf xs.length i with
    | error e => exact ⟨h, ns, _, rfl, r⟩
    | ok j =>
      cases hv : validateItem it with
      | error e => exact ⟨h, ns, _, rfl, r⟩
      | ok v =>
        have hj : i.toNat = j ∧ j ≤ xs.length := by
          cases i with
          | slice s t u => cases hp
          | other => cases hp
          | int i =>
            simp only [placeOf] at hp
            by_cases hi : 0 ≤ i ∧ i ≤ (xs.length : Int)
            · rw [if_pos hi] at hp
              cases hp
              exact ⟨rfl, by omega⟩
            · rw [if_neg hi] at hp; cases hp
        simp only [run_lift_ok, hj.1]
        exact r.insertAt hj.2 v
  | setItem i it =>
    simp only [ringStep, setItem, run_bind, plainCall, r.validateIndex]
    cases hp : placeOf xs.length i with
    | error e => exact ⟨h, ns, _, rfl, r⟩
    | ok j =>
      cases i with
      | slice s t u => cases hp
      | other => cases hp
      | int i =>
        simp only [placeOf] at hp
        by_cases hi : 0 ≤ i ∧ i ≤ (xs.length : Int)
        · rw [if_pos hi] at hp
          cases hp
          by_cases he : i = (xs.length : Int)
          · refine ⟨h, ns, e, ?_, ?_⟩
            · simp [r.lenobj, he]
            · simpa [he] using r
          · have h2 : i.toNat ≠ xs.length := by omega
            have h3 : Idx.int i ≠ .int ((h.lobj l).length : Int) := by
              rw [r.lenobj]; simpa using he
            simp only [run_getList, h3, if_false, h2]
            cases hv : validateItem it with
            | error e => exact ⟨h, ns, _, rfl, r⟩
            | ok v =>
              obtain ⟨h', e', r'⟩ := r.replaceValue (i := i.toNat) (by omega) v
              exact ⟨h', ns, e, by simp only [Idx.toNat]; exact e', r'⟩
        · rw [if_neg hi] at hp; cases hp
  | delItem i =>
    obtain ⟨h', ns', e', r'⟩ := ring_delItem r i
    exact ⟨h', ns', e, e', r'⟩
  | removeFront =>
    simp only [ringStep, removeFront, isEmpty, run_bind, run_getList, run_pure, r.lenobj]
    cases xs with
    | nil => exact ⟨h, ns, e, by simp [plainCall], by simpa [plainCall] using r⟩
    | cons z xs =>
      obtain ⟨h', ns', e', r'⟩ := ring_delItem r (.int 0)
      have hc : plainCall (.delItem (.int 0)) (z :: xs) = (.ok (), xs) := by
        have : (0 : Int) ≤ 0 ∧ (0 : Int) ≤ ((z :: xs).length : Int) := by omega
        simp only [plainCall, placeOf, if_pos this]
        simp
      rw [hc] at e' r'
      exact ⟨h', ns', e, by simpa [plainCall] using e', by simpa [plainCall] using r'⟩
  | removeEnd =>
    simp only [ringStep, removeEnd, isEmpty, run_bind, run_getList, run_pure, r.lenobj]
    cases xs with
    | nil => exact ⟨h, ns, e, by simp [plainCall], by simpa [plainCall] using r⟩
    | cons z xs =>
      obtain ⟨h', ns', e', r'⟩ := ring_delItem r (.int (((z :: xs).length : Int) - 1))
      have hc : plainCall (.delItem (.int (((z :: xs).length : Int) - 1))) (z :: xs)
          = (.ok (), (z :: xs).dropLast) := by
        have h1 : 0 ≤ ((z :: xs).length : Int) - 1 ∧
            ((z :: xs).length : Int) - 1 ≤ ((z :: xs).length : Int) := by
          rw [List.length_cons]; omega
        have h2 : (((z :: xs).length : Int) - 1).toNat = (z :: xs).length - 1 := by
          rw [List.length_cons]; omega
        simp only [plainCall, placeOf, if_pos h1, h2]
        rw [if_neg (by simp), List.eraseIdx_length_sub_one]
      rw [hc] at e' r'
      refine ⟨h', ns', e, ?_, by simpa only [plainCall] using r'⟩
      have h3 : ((z :: xs).length == 0) = false := rfl
      simp only [h3, Bool.false_eq_true, if_false, run_bind, run_getList, r.lenobj]
      exact e'
  | remove it all =>
    cases all with
    | none => exact ⟨h, ns, _, rfl, r⟩
    | some all =>
      cases it with
      | none => exact ⟨h, ns, _, by cases all <;> rfl, by cases all <;> exact r⟩
      | extra => exact ⟨h, ns, _, by cases all <;> rfl, by cases all <;> exact r⟩
      | val v =>
        obtain ⟨h', ns', e', r'⟩ := r.remove v all
        exact ⟨h', ns', e, by cases all <;> exact e', by cases all <;> exact r'⟩
  | clear =>
    have hc : ∃ h', clear l h = (.ok (), h') ∧ (h'.lobj l).length = 0 := ⟨_, rfl, by simp⟩
    obtain ⟨h', e1, e2⟩ := hc
    refine ⟨h', [], none, e1, ?_⟩
    exact ⟨e2, by simp, by simp, trivial, by simp [plainCall], by simp [plainCall], by simp⟩

private theorem ring_steps : ∀ (ops : List (XOp V)) {h : Heap V X} {ns : List Nat} {xs : List V}
    {e : Option Nat}, RingRep h l ns xs e →
    ∃ h' ns' e', ringSteps l ops h = ((plainCalls ops xs).1, h') ∧
      RingRep h' l ns' (plainCalls ops xs).2 e'
  | [], h, ns, xs, e, r => ⟨h, ns, e, rfl, r⟩
  | op :: ops, h, ns, xs, e, r => by
    obtain ⟨h1, ns1, e1, s1, r1⟩ := ring_step r op
    obtain ⟨h2, ns2, e2, s2, r2⟩ := ring_steps ops r1
    exact ⟨h2, ns2, e2, by simp only [ringSteps, s1, s2, plainCalls], r2⟩

private theorem ring_reads (r : RingRep h l ns xs e) :
    toList l h = (.ok (xs.map some), h) ∧ llLen l h = (.ok xs.length, h) ∧
      ∀ (i : Nat) (hi : i < xs.length), getItem .ll l (.int i) h = (.ok (some xs[i]), h) := by
  refine ⟨r.toList, by simp [llLen, run_bind, r.lenobj], fun i hi => ?_⟩
  obtain ⟨p, a, e1, d1⟩ := r.nodeData hi
  have h1 : ¬ ((i : Int) < -(xs.length : Int) ∨ (i : Int) > (xs.length : Int)) := by omega
  have h2 : (i : Int) ≠ (xs.length : Int) := by omega
  have h3 : (if (i : Int) ≤ -1 then (i : Int) + (xs.length : Int) else (i : Int)).toNat = i := by
    split <;> omega
  simp only [getItem, validateIndex, Bool.true_eq_false, and_false, if_false, run_bind, run_pure,
    run_getList, r.lenobj, h1, h2, h3, e1, run_getData, d1]

private theorem Looped.ring {e : Nat} (L : Looped h l ns xs e) (hn : ns.Nodup) :
    RingRep h l ns xs (some e) := ⟨L.len, fun _ => L.head, hn, L.src⟩

/-- C100, for `ll = LinkedList(cll)`: every run of changing calls on `ll` gives what it gives on a Python
list of the items of `cll`, and at the end `to_list()`, `len` and `ll[i]` report that list.  (Only the
search is lost, `C100_from_circular`.) -/
theorem C100_circular_history {c : Nat} (r : Rep .cll h c ns xs) (hne : xs ≠ []) (ops : List (XOp V)) :
    ∃ h1 l h2, initAlias .ll c h = (.ok l, h1) ∧ ringSteps l ops h1 = ((plainCalls ops xs).1, h2) ∧
      toList l h2 = (.ok ((plainCalls ops xs).2.map some), h2) ∧
      llLen l h2 = (.ok (plainCalls ops xs).2.length, h2) ∧
      ∀ (i : Nat) (hi : i < (plainCalls ops xs).2.length),
        getItem .ll l (.int i) h2 = (.ok (some ((plainCalls ops xs).2[i])), h2) := by
  obtain ⟨h1, e, e1, L⟩ := initAlias_looped r hne
  obtain ⟨h2, ns2, _, e2, r2⟩ := ring_steps ops (L.ring r.nodup)
  exact ⟨h1, _, h2, e1, e2, ring_reads r2⟩

/-- C100, for `ll.extend(cll)`: so does every run of changing calls on `ll` afterwards. -/
theorem C100_extend_circular_history {h : Heap V Bool} {c : Nat} {ns' : List Nat} {ys : List V}
    (r : Rep .ll h l ns xs) (hx : ∀ a ∈ ns, (h.node a).ext = false) (rc : Rep .cll h c ns' ys)
    (hd : ∀ a ∈ ns, a ∉ ns') (hne : ys ≠ []) (ops : List (XOp V)) :
    ∃ h1 h2, xExtend l c h = (.ok (), h1) ∧ ringSteps l ops h1 = ((plainCalls ops (xs ++ ys)).1, h2) ∧
      toList l h2 = (.ok ((plainCalls ops (xs ++ ys)).2.map some), h2) ∧
      llLen l h2 = (.ok (plainCalls ops (xs ++ ys)).2.length, h2) ∧
      ∀ (i : Nat) (hi : i < (plainCalls ops (xs ++ ys)).2.length),
        getItem .ll l (.int i) h2 = (.ok (some ((plainCalls ops (xs ++ ys)).2[i])), h2) := by
  obtain ⟨h1, e, e1, L⟩ := xExtend_looped r hx rc hd hne
  obtain ⟨h2, ns2, _, e2, r2⟩ := ring_steps ops (L.ring (List.nodup_append.2
    ⟨r.nodup, rc.nodup, fun a ha b hb he => hd a ha (he ▸ hb)⟩))
  exact ⟨h1, h2, e1, e2, ring_reads r2⟩

/-! ## Concrete cases -/

private def int (n : Int) : Item Val := .val (.int n)

/-- `cll = CircularLinkedList([1, 2, 3]); ll = LinkedList(cll)`, a run of calls on `ll`, then
`ll.to_list()` and `cll.to_list()` -/
private def demo (ops : List (XOp Val)) :
    Option (List (Except Err Unit) × Except Err (List (Option Val)) × Except Err (List (Option Val))) :=
  match (do let c ← initFrom .cll [int 1, int 2, int 3]; let l ← initAlias .ll c; M.pure (c, l))
      (Heap.empty : Heap Val Unit) with
  | (.error _, _) => none
  | (.ok (c, l), h) =>
    let (rs, h) := ringSteps l ops h
    some (rs, (toList l h).1, (toList c h).1)

/-- the calls on `ll` go through — and show in `cll`, which is still made of the same nodes: it has lost
the 1 and has got the 4 in its place at the end -/
example : demo [.removeFront, .addEnd (int 4), .setItem (.int 0) (int 9), .insert (.int 7) (int 5)] =
    some ([.ok (), .ok (), .ok (), .error .indexError],
      .ok [some (.int 9), some (.int 3), some (.int 4)],
      .ok [some (.int 9), some (.int 3), some (.int 4)]) := by decide +kernel

/-- an item put in front of `ll` does not show in `cll`; a removal of all 3s does -/
example : demo [.addFront (int 3), .remove (int 3) (some true), .removeEnd] =
    some ([.ok (), .ok (), .ok ()], .ok [some (.int 1)],
      .ok [some (.int 1), some (.int 2), some (.int 1)]) := by decide +kernel

end Extra
