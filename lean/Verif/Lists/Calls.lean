import Verif.Lists.World

/-! # Every call meets its specification, on one list -/

set_option linter.unusedSectionVars false
set_option linter.unusedSimpArgs false
attribute [local irreducible] Extra.upd

namespace Extra
variable {V X : Type} [PyData V] [Inhabited X]

/-- a call that updates list `l` to the given contents or fails without effect -/
def UpdOK (k : Kind) (h : Heap V X) (l : Addr) (ns : List Addr) (m : M V X Unit)
    (r : Except Err (List V)) : Prop :=
  match r with
  | .error e => m h = (.error e, h)
  | .ok ys => ∃ h' ns', m h = (.ok (), h') ∧ Rep k h' l ns' ys ∧ Mut k h h' l ns ns'

/-- a call that creates a list or fails without touching any existing object -/
def NewOK (k : Kind) (h : Heap V X) (m : M V X Addr) (r : Except Err (List V)) : Prop :=
  match r with
  | .error e => ∃ h', m h = (.error e, h') ∧ Frame h h' (fun _ => False) (fun _ => False)
  | .ok ys => ∃ h' l' ns', m h = (.ok l', h') ∧ Built k h h' l' ns' ys

variable {k : Kind} {h : Heap V X} {l : Addr} {ns : List Addr} {xs : List V}

theorem Rep.lenobj (r : Rep k h l ns xs) : (h.lobj l).length = xs.length := by
  rw [r.len, r.length_eq]

theorem specItems_eq : ∀ items : List (Item V),
    specItems items = (items.mapM validateItem).map (List.map PyData.norm)
  | [] => rfl
  | it :: its => by
    rw [specItems, specItems_eq its, List.mapM_cons]
    cases it <;> simp [specItem, validateItem, bind, Except.bind, Except.map]
    cases its.mapM (validateItem (V := V)) <;> simp [pure, Except.pure]

theorem new_call (items : List (Item V)) : NewOK k h (initFrom k items) (specItems items) := by
  rw [specItems_eq]
  have := initFrom_spec k items h
  cases hm : items.mapM validateItem with
  | error e => rw [hm] at this; exact this
  | ok vs => rw [hm] at this; exact this

theorem addFront_call (r : Rep k h l ns xs) (item : Item V) :
    UpdOK k h l ns (addFront k l item) ((specItem item).map (· :: xs)) := by
  cases item with
  | none => simp [UpdOK, specItem, Except.map, addFront, validateItem, run_bind]
  | extra => simp [UpdOK, specItem, Except.map, addFront, validateItem, run_bind]
  | val v =>
    obtain ⟨h', ns', e, r', m, _⟩ := addFront_spec r v
    exact ⟨h', ns', e, r', m⟩

theorem addEnd_call (r : Rep k h l ns xs) (item : Item V) :
    UpdOK k h l ns (addEnd k l item) ((specItem item).map (fun v => xs ++ [v])) := by
  cases item with
  | none => simp [UpdOK, specItem, Except.map, addEnd, validateItem, run_bind]
  | extra => simp [UpdOK, specItem, Except.map, addEnd, validateItem, run_bind]
  | val v =>
    obtain ⟨h', ns', e, r', m, _⟩ := addEnd_spec r v
    exact ⟨h', ns', e, r', m⟩

/-- `_validate_index(idx)` without negative indices or slices -/
theorem validateIndex_spec (r : Rep k h l ns xs) (idx : Idx) :
    match specPos k xs.length idx with
    | .error e => validateIndex k l idx false false h = (.error e, h)
    | .ok p => validateIndex k l idx false false h = (.ok (), h) ∧ idx = .int (p : Int) ∧
        (k ≠ .cll → p ≤ xs.length) := by
  cases idx with
  | other => simp [specPos, validateIndex]
  | slice a b c => simp [specPos, validateIndex]
  | int i =>
    by_cases h0 : i < 0
    · have : i ≤ -1 := by omega
      simp [specPos, validateIndex, h0, this]
    · have h1 : ¬ i ≤ -1 := by omega
      cases k with
      | cll => simp [specPos, validateIndex, h0, h1]; omega
      | ll | dll =>
        by_cases h2 : (xs.length : Int) < i
        · simp [specPos, validateIndex, h0, h1, h2, run_bind, r.lenobj]
        · have h3 : ¬ i < -(xs.length : Int) := by omega
          simp only [specPos, validateIndex, h0, h1, h2, run_bind, r.lenobj, h3, run_getList,
            run_pure, if_false, false_and, and_false, true_and, Idx.int.injEq, gt_iff_lt, or_self]
          exact ⟨by omega, fun _ => by omega⟩

theorem insert_call (r : Rep k h l ns xs) (idx : Idx) (item : Item V) :
    UpdOK k h l ns (insert k l idx item) (match specPos k xs.length idx with
      | .error e => .error e
      | .ok p => (specItem item).map
          (fun v => xs.insertIdx (if k = .cll then p % (xs.length + 1) else p) v)) := by
  have hv := validateIndex_spec r idx
  cases hp : specPos k xs.length idx with
  | error e =>
    rw [hp] at hv
    simp only [UpdOK, insert, run_bind, hv]
  | ok p =>
    rw [hp] at hv
    obtain ⟨hv, rfl, hle⟩ := hv
    cases item with
    | none => simp [UpdOK, specItem, Except.map, insert, validateItem, run_bind, hv]
    | extra => simp [UpdOK, specItem, Except.map, insert, validateItem, run_bind, hv]
    | val v =>
      have hle' : (if k = .cll then p % (xs.length + 1) else p) ≤ xs.length := by
        by_cases hk : k = .cll
        · rw [if_pos hk]; exact Nat.le_of_lt_succ (Nat.mod_lt _ (by omega))
        · rw [if_neg hk]; exact hle hk
      obtain ⟨h', ns', e, r', m, _⟩ := insertAt_spec r hle' v
      refine ⟨h', ns', ?_, r', m⟩
      cases k <;>
        simpa [insert, run_bind, hv, validateItem, Idx.toNat, Idx.mod, r.lenobj] using e

/-- the element designated by a valid index -/
theorem specElt_lt {n p : Nat} {idx : Idx} (h : specElt k n idx = .ok p) (hn : k = .cll → 0 < n) :
    p < n := by
  rw [specElt] at h
  cases hp : specPos k n idx with
  | error e => rw [hp] at h; cases h
  | ok q =>
    rw [hp] at h
    by_cases hk : k = .cll
    · simp only [hk, if_true, Except.ok.injEq] at h
      rw [← h]; exact Nat.mod_lt _ (hn hk)
    · simp only [hk, if_false] at h
      by_cases hq : q = n
      · simp [hq] at h
      · simp only [hq, if_false, Except.ok.injEq] at h
        subst h
        cases idx with
        | other => simp [specPos] at hp
        | slice => simp [specPos] at hp
        | int i =>
          simp only [specPos] at hp
          split at hp
          · cases hp
          · split at hp
            · cases hp
            · simp only [Except.ok.injEq] at hp
              simp_all
              omega

theorem specElt_ll {n q : Nat} {idx : Idx} (hk : k ≠ .cll) (h : specPos k n idx = .ok q) :
    specElt k n idx = if q = n then .error .indexError else .ok q := by
  rw [specElt, h]; simp [hk]

theorem specElt_cll {n q : Nat} {idx : Idx} (h : specPos .cll n idx = .ok q) :
    specElt .cll n idx = .ok (q % n) := by
  rw [specElt, h]; simp

theorem Idx.int_eq_len {p n : Nat} : (Idx.int (p : Int) = Idx.int (n : Int)) ↔ p = n := by
  rw [Idx.int.injEq]; omega

theorem setItem_call (r : Rep k h l ns xs) (idx : Idx) (item : Item V)
    (hne : ¬ (k = .cll ∧ xs = [])) :
    UpdOK k h l ns (setItem k l idx item) (match specElt k xs.length idx, item with
      | .error e, _ => .error e
      | .ok _, .none => .error (if k = .cll then .assertionError else .valueError)
      | .ok p, item => (specItem item).map (fun v => xs.set p v)) := by
  have hv := validateIndex_spec r idx
  cases hp : specPos k xs.length idx with
  | error e =>
    rw [hp] at hv
    have : specElt k xs.length idx = .error e := by rw [specElt, hp]
    rw [this]
    cases k <;> simp only [UpdOK, setItem, run_bind, hv]
  | ok p =>
    rw [hp] at hv
    obtain ⟨hv, rfl, hle⟩ := hv
    by_cases hk : k = .cll
    · subst hk
      have hx : xs.length ≠ 0 := fun e => hne ⟨rfl, List.eq_nil_of_length_eq_zero e⟩
      have hlt : p % xs.length < xs.length := Nat.mod_lt _ (by omega)
      have hmod : (Idx.int (p : Int)).mod xs.length = p % xs.length := by
        simp [Idx.mod, Idx.toNat, hx]
      rw [specElt_cll hp]
      cases item with
      | none => simp only [UpdOK, setItem, run_bind, hv, run_getList, run_throw, if_true]
      | extra =>
        obtain ⟨q, a, e1, _⟩ := getNode_data r hlt
        simp [UpdOK, specItem, Except.map, setItem, run_bind, hv, r.lenobj, hmod, e1]
      | val v =>
        obtain ⟨h', e, r', m, _⟩ := replaceValue_spec r hlt v
        refine ⟨h', ns, ?_, r', m⟩
        simp only [setItem, run_bind, hv, run_getList, r.lenobj, hmod, e]
    · rw [specElt_ll hk hp]
      by_cases hn : p = xs.length
      · subst hn
        cases k with
        | cll => exact absurd rfl hk
        | ll | dll => simp [UpdOK, setItem, run_bind, hv, r.lenobj]
      · have hlt : p < xs.length := by have := hle hk; omega
        have hne' : ¬ (Idx.int (p : Int) = Idx.int (xs.length : Int)) := by
          rw [Idx.int_eq_len]; exact hn
        rw [if_neg hn]
        cases item with
        | none => cases k <;> simp_all [UpdOK, setItem, run_bind, r.lenobj, validateItem]
        | extra =>
          cases k <;> simp_all [UpdOK, setItem, run_bind, r.lenobj, validateItem, specItem, Except.map]
        | val v =>
          obtain ⟨h', e, r', m, _⟩ := replaceValue_spec r hlt v
          refine ⟨h', ns, ?_, r', m⟩
          cases k with
          | cll => exact absurd rfl hk
          | ll | dll =>
            simp only [setItem, run_bind, hv, run_getList, r.lenobj, hne', if_false, validateItem,
              run_lift_ok, Idx.toNat, Int.toNat_natCast, e]

/-- item assignment on an empty circular list -/
theorem setItem_empty (r : Rep .cll h l ns ([] : List V)) (idx : Idx) (item : Item V) :
    ∃ res h', setItem .cll l idx item h = (res, h') ∧ Rep .cll h' l ns [] ∧
      Mut .cll h h' l ns ns ∧
      match specPos .cll 0 idx, item with
      | .error e, _ => res = .error e
      | .ok _, .none => res = .error .assertionError
      | .ok _, .extra => res = .error .attributeError ∨ res = .error .typeError
      | .ok _, .val _ => res = .error .attributeError ∨ res = .ok () := by
  have hv := validateIndex_spec r idx
  rw [List.length_nil] at hv
  have hns : ns = [] := List.eq_nil_of_length_eq_zero r.length_eq
  subst hns
  cases hp : specPos .cll 0 idx with
  | error e =>
    rw [hp] at hv
    exact ⟨.error e, h, by simp only [setItem, run_bind, hv], r, Mut.refl _ _ _ _, rfl⟩
  | ok p =>
    rw [hp] at hv
    obtain ⟨hv, rfl, -⟩ := hv
    have hm : (Idx.int (p : Int)).mod 0 = 0 := by simp [Idx.mod]
    have hg : getNode .cll l 0 h = (.ok (none, (h.lobj l).head), h) := by
      simp [getNode, run_bind, getNodeLoop]
    have hl := r.lenobj
    rw [List.length_nil] at hl
    cases item with
    | none => exact ⟨_, h, by simp only [setItem, run_bind, hv, run_getList, run_throw], r,
        Mut.refl _ _ _ _, rfl⟩
    | extra =>
      cases hh : (h.lobj l).head with
      | none =>
        exact ⟨.error .attributeError, h, by
          simp [setItem, run_bind, hv, hl, hm, hg, hh], r, Mut.refl _ _ _ _, Or.inl rfl⟩
      | some a =>
        exact ⟨.error .typeError, h, by
          simp [setItem, run_bind, hv, hl, hm, hg, hh], r, Mut.refl _ _ _ _, Or.inr rfl⟩
    | val v =>
      cases hh : (h.lobj l).head with
      | none =>
        exact ⟨.error .attributeError, h, by
          simp [setItem, replaceValue, run_bind, hv, hl, hm, hg, hh], r, Mut.refl _ _ _ _,
          Or.inl rfl⟩
      | some a =>
        -- the value goes into the dead head node
        obtain ⟨h', he, hN, hL, n1, n2⟩ : ∃ h', setItem .cll l (.int p) (.val v) h = (.ok (), h') ∧
            h'.node = upd h.node a { h.node a with data := some (PyData.norm v) } ∧
            h'.lobj = h.lobj ∧ h'.nNodes = h.nNodes ∧ h'.nLists = h.nLists :=
          ⟨⟨_, h.lobj, h.nNodes, h.nLists⟩, by
            simp [setItem, replaceValue, run_bind, hv, hl, hm, hg, hh, setData, Heap.setNode],
            rfl, rfl, rfl, rfl⟩
        have f : Frame h h' (Own .cll h l []) (· = l) :=
          ⟨fun b _ hb => by
            rw [hN, upd_ne]
            rintro rfl; exact hb (Or.inr ⟨rfl, hh⟩), fun _ _ _ => by rw [hL], by omega, by omega⟩
        refine ⟨.ok (), h', he, ⟨by rw [hL]; exact r.len, by simp, by simp, by simp, by simp,
          by rw [n2]; exact r.lbound, by simp, by rw [hL, n1]; exact r.hbound, trivial, by simp,
          by simp⟩, ⟨f, ?_⟩, Or.inr rfl⟩
        intro b hb
        left
        rw [Own, hL] at hb
        exact hb

theorem delItem_call (r : Rep k h l ns xs) (idx : Idx) :
    UpdOK k h l ns (delItem k l idx) (match specElt k xs.length idx with
      | .error e => .error e
      | .ok p => .ok (xs.eraseIdx p)) := by
  have hv := validateIndex_spec r idx
  cases hp : specPos k xs.length idx with
  | error e =>
    rw [hp] at hv
    have : specElt k xs.length idx = .error e := by rw [specElt, hp]
    rw [this]
    simp only [UpdOK, delItem, run_bind, hv]
  | ok p =>
    rw [hp] at hv
    obtain ⟨hv, rfl, hle⟩ := hv
    by_cases hk : k = .cll
    · subst hk
      rw [specElt_cll hp]
      by_cases hx : xs.length = 0
      · have := List.eq_nil_of_length_eq_zero hx
        subst this
        refine ⟨h, ns, ?_, by simpa using r, Mut.refl _ _ _ _⟩
        have hl := r.lenobj
        simp only [List.length_nil] at hl
        simp only [delItem, run_bind, hv, run_getList, hl, if_true, run_pure]
      · have hlt : p % xs.length < xs.length := Nat.mod_lt _ (by omega)
        have hmod : (Idx.int (p : Int)).mod xs.length = p % xs.length := by
          simp [Idx.mod, Idx.toNat, hx]
        obtain ⟨h', ns', e, r', m, _⟩ := removeIdx_spec r hlt
        refine ⟨h', ns', ?_, r', m⟩
        simp only [delItem, run_bind, hv, run_getList, r.lenobj, hx, if_false, hmod, e]
    · rw [specElt_ll hk hp]
      by_cases hn : p = xs.length
      · subst hn
        cases k with
        | cll => exact absurd rfl hk
        | ll | dll => simp [UpdOK, delItem, run_bind, hv, r.lenobj]
      · have hlt : p < xs.length := by have := hle hk; omega
        have hne' : ¬ (Idx.int (p : Int) = Idx.int (xs.length : Int)) := by
          rw [Idx.int_eq_len]; exact hn
        rw [if_neg hn]
        obtain ⟨h', ns', e, r', m, _⟩ := removeIdx_spec r hlt
        refine ⟨h', ns', ?_, r', m⟩
        cases k with
        | cll => exact absurd rfl hk
        | ll | dll =>
          simp only [delItem, run_bind, hv, run_getList, r.lenobj, hne', if_false, Idx.toNat,
            Int.toNat_natCast, e]

theorem delItem_nat (r : Rep k h l ns xs) {p : Nat} (hp : p < xs.length) :
    UpdOK k h l ns (delItem k l (.int p)) (.ok (xs.eraseIdx p)) := by
  have hs : specPos k xs.length (.int p) = .ok p := by
    have : ¬ ((xs.length : Int) < p) := by omega
    simp [specPos, this]
  have := delItem_call r (.int p)
  by_cases hk : k = .cll
  · subst hk
    rw [specElt_cll hs, Nat.mod_eq_of_lt hp] at this
    exact this
  · rw [specElt_ll hk hs, if_neg (by omega)] at this
    exact this

theorem removeFront_call (r : Rep k h l ns xs) :
    UpdOK k h l ns (removeFront k l) (.ok xs.tail) := by
  cases hx : xs with
  | nil =>
    subst hx
    exact ⟨h, ns, by simp [removeFront, run_bind, isEmpty_spec r], r, Mut.refl _ _ _ _⟩
  | cons x xs' =>
    have := delItem_nat r (p := 0) (by simp [hx])
    obtain ⟨h', ns', e, r', m⟩ := this
    refine ⟨h', ns', ?_, by simpa [hx] using r', m⟩
    simp only [Nat.cast_zero] at e
    simp only [removeFront, run_bind, isEmpty_spec r, hx, reduceCtorEq, decide_false,
      Bool.false_eq_true, if_false, e]

theorem removeEnd_call (r : Rep k h l ns xs) :
    UpdOK k h l ns (removeEnd k l) (.ok xs.dropLast) := by
  by_cases hx : xs = []
  · subst hx
    exact ⟨h, ns, by simp [removeEnd, run_bind, isEmpty_spec r], r, Mut.refl _ _ _ _⟩
  · have hpos : 0 < xs.length := List.length_pos_iff.2 hx
    have := delItem_nat r (p := xs.length - 1) (by omega)
    obtain ⟨h', ns', e, r', m⟩ := this
    refine ⟨h', ns', ?_, by rwa [List.eraseIdx_length_sub_one] at r', m⟩
    rw [show ((xs.length - 1 : Nat) : Int) = (xs.length : Int) - 1 by omega] at e
    simp only [removeEnd, run_bind, isEmpty_spec r, hx, decide_false, run_getList, r.lenobj,
      Bool.false_eq_true, if_false, e]

theorem remove_call (r : Rep k h l ns xs) (item : Item V) (all : Option Bool) :
    UpdOK k h l ns (remove k l item all) (match all, item with
      | none, _ => .error .typeError
      | some _, .none => .error .valueError
      | some _, .extra => .error .typeError
      | some true, .val v => .ok (xs.filter (fun x => decide (x ≠ v)))
      | some false, .val v => .ok (xs.erase v)) := by
  match all, item with
  | none, _ => simp [UpdOK, remove]
  | some _, .none => simp [UpdOK, remove, run_bind, validateItem]
  | some _, .extra => simp [UpdOK, remove, run_bind, validateItem]
  | some true, .val v =>
    obtain ⟨h', ns', e, r', m, _⟩ := remove_spec r v true
    exact ⟨h', ns', e, by simpa using r', m⟩
  | some false, .val v =>
    obtain ⟨h', ns', e, r', m, _⟩ := remove_spec r v false
    exact ⟨h', ns', e, by simpa using r', m⟩

theorem clear_call (r : Rep k h l ns xs) : UpdOK k h l ns (clear l) (.ok []) := by
  obtain ⟨h', e, r', m, _⟩ := clear_spec r
  exact ⟨h', [], e, r', m⟩

theorem specFlag_eq (k : Kind) (dir : Dir) (f : Flag) : specFlag k dir f = checkInplace k dir f := by
  cases f <;> cases k <;> cases dir <;> rfl

theorem specRotate_eq (d : Nat) (dir : Dir) : specRotate xs d dir = rotated xs d dir := by
  cases dir <;> rfl

theorem getItem_call (r : Rep k h l ns xs) (idx : Idx)
    (hidx : k = .cll ∨ ∀ a b c, idx ≠ .slice a b c) :
    getItem k l idx h = ((specGet k xs idx).map some, h) := by
  cases idx with
  | other =>
    cases k <;> simp [getItem, validateIndex, run_bind, specGet, Except.map]
  | slice a b c =>
    rcases hidx with rfl | hidx
    · simp [getItem, validateIndex, run_bind, specGet, Except.map]
    · exact absurd rfl (hidx a b c)
  | int i =>
    cases hk : k with
    | cll =>
      subst hk
      by_cases h0 : i < 0
      · have h1 : i ≤ -1 := by omega
        have h2 : ¬ 0 ≤ i := by omega
        simp [getItem, validateIndex, run_bind, h1, specGet, h2, Except.map]
      · have h1 : ¬ i ≤ -1 := by omega
        by_cases hx : xs = []
        · subst hx
          have hl := r.lenobj
          simp only [List.length_nil] at hl
          simp [getItem, validateIndex, run_bind, h1, specGet, hl, Except.map]
        · have hpos : 0 < xs.length := List.length_pos_iff.2 hx
          have hj : i.toNat % xs.length < xs.length := Nat.mod_lt _ hpos
          rw [getItem_ok r hj ⟨by omega, rfl⟩]
          have h3 : 0 ≤ i := by omega
          obtain ⟨n, rfl⟩ := Int.eq_ofNat_of_zero_le h3
          simp only [Int.toNat_natCast] at hj
          have h4 : (n : Int) % (xs.length : Int) = ((n % xs.length : Nat) : Int) := by simp
          simp only [specGet, h0, h3, hx, ne_eq, not_true_eq_false, false_and, if_false,
            not_false_eq_true, and_self, if_true, h4, Int.toNat_natCast,
            List.getElem?_eq_getElem hj, Int.natCast_nonneg, Except.map]
    | ll | dll =>
      subst hk
      by_cases hr : -(xs.length : Int) ≤ i ∧ i < xs.length
      · by_cases h0 : i < 0
        · have hj : (i + xs.length).toNat < xs.length := by omega
          rw [getItem_ok r hj (Or.inr ⟨h0, by omega⟩)]
          have h4 : 0 ≤ i + xs.length := by omega
          simp [specGet, h0, h4, Except.map, List.getElem?_eq_getElem hj]
        · have hj : i.toNat < xs.length := by omega
          rw [getItem_ok r hj (Or.inl ⟨by omega, by omega⟩)]
          have h4 : 0 ≤ i := by omega
          simp [specGet, h0, h4, Except.map, List.getElem?_eq_getElem hj]
      · have hs : ∀ k', k' ≠ .cll → specGet k' xs (.int i) = .error .indexError := by
          intro k' hk'
          by_cases h0 : i < 0
          · have h4 : ¬ 0 ≤ i + xs.length := by omega
            simp [specGet, hk', h0, h4]
          · have h4 : 0 ≤ i := by omega
            have h5 : xs[i.toNat]? = none := List.getElem?_eq_none (by omega)
            simp [specGet, hk', h0, h4, h5]
        rw [hs _ (by simp)]
        by_cases hb : i < -(xs.length : Int) ∨ i > (xs.length : Int)
        · simp only [getItem, validateIndex, run_bind, Bool.true_eq_false, and_false, if_false,
            run_getList, r.lenobj, hb, if_true, run_throw, Except.map]
        · have : i = xs.length := by omega
          subst this
          have h5 : ¬ ((xs.length : Int) < 0) := by omega
          simp [getItem, validateIndex, run_bind, r.lenobj, Except.map, h5]

end Extra
