import Verif.Trees.BstNan
import Verif.Trees.BstProofs

/-! # Lemmas about a `BST` with `nan`, and its specification -/

set_option linter.unusedSectionVars false

namespace Extra
variable {N : Type} [LinearOrder N]

/-! ## Specification: the numbers in the order of `inorder_traverse` -/

/-- the call is not `invert` and does not remove a number; `remove(nan)` is allowed -/
def Keeping : BstOp (PyNum N) → Prop
  | .remove (.num (.num _)) => False
  | .invert => False
  | _ => True

/-- the number is smaller than this one; false if either is `nan` -/
def smaller (v : PyNum N) (x : PyNum N) : Bool :=
  match v, x with
  | .num a, .num b => decide (a < b)
  | _, _ => false

/-- a new number is put before the first greater one, at the end if there is none (so for `nan`) -/
def putNan (v : PyNum N) (xs : List (PyNum N)) : List (PyNum N) :=
  xs.takeWhile (fun x => !smaller v x) ++ v :: xs.dropWhile (fun x => !smaller v x)

/-- one call, for a list of numbers -/
def nanSpec (xs : List (PyNum N)) : BstOp (PyNum N) → BstRes (PyNum N) × List (PyNum N)
  | .insert .none => (.error .valueError, xs)
  | .insert .other => (.error .typeError, xs)
  | .insert (.num v) =>
    if v ≠ .nan ∧ v ∈ xs then (.ok (.unit, true), xs) else (.ok (.unit, false), putNan v xs)
  | .contains (.num v) => (.ok (.bool (decide (v ≠ .nan ∧ v ∈ xs)), false), xs)
  | .contains _ => (.ok (.bool false, false), xs)
  | .getMin => (match xs.head? with | none => .error .indexError | some m => .ok (.num m, false), xs)
  | .getMax => (match xs.getLast? with | none => .error .indexError | some m => .ok (.num m, false), xs)
  | .len => (.ok (.int xs.length, false), xs)
  | .isEmpty => (.ok (.bool xs.isEmpty, false), xs)
  | .clear => (.ok (.unit, false), [])
  | .inorder => (.ok (.list xs, false), xs)
  | .remove _ => (.ok (.unit, true), xs)
  | .invert => (.ok (.unit, false), xs)

/-- a history of calls -/
def nanSpecs : List (BstOp (PyNum N)) → List (PyNum N) → List (BstRes (PyNum N)) × List (PyNum N)
  | [], xs => ([], xs)
  | op :: ops, xs => ((nanSpec xs op).1 :: (nanSpecs ops (nanSpec xs op).2).1, (nanSpecs ops (nanSpec xs op).2).2)

/-- the calls after the last `clear` -/
def sinceClear : List (BstOp (PyNum N)) → List (BstOp (PyNum N))
  | [] => []
  | op :: ops => if .clear ∈ ops then sinceClear ops else if op = .clear then ops else op :: ops

/-! ## Lemmas -/

theorem nanContains_nan (t : BTree (PyNum N)) : nanContains .nan t = false := by
  unfold nanContains
  cases nanSearch .nan t with
  | none => rfl
  | some w => cases w <;> rfl

theorem nanRemove_nan : ∀ t : BTree (PyNum N), nanRemove .nan t = (t, false)
  | .nil => rfl
  | .node l w r => by
    rw [nanRemove, nanRemove_nan r]
    cases w <;> rfl

theorem nanInsert_nan : ∀ t : BTree (PyNum N),
    (nanInsert .nan t).1.inorder = t.inorder ++ [.nan] ∧ (nanInsert .nan t).2 = true
  | .nil => ⟨rfl, rfl⟩
  | .node l w r => by
    obtain ⟨h1, h2⟩ := nanInsert_nan r
    cases w <;> simp [nanInsert, PyNum.eq, PyNum.lt, BTree.inorder, h1, h2]

/-- `nan` has nothing on its left and lies on the way that always goes right; the other numbers are in order -/
def NanOrd : BTree (PyNum N) → Prop
  | .nil => True
  | .node l .nan r => l = .nil ∧ NanOrd r
  | .node l (.num b) r => NanOrd l ∧ NanOrd r ∧ .nan ∉ l.inorder ∧ (∀ x, .num x ∈ l.inorder → x < b) ∧
      ∀ x, .num x ∈ r.inorder → b < x

theorem nanSearch_isSome (v : PyNum N) (l : BTree (PyNum N)) (w r) : (nanSearch v (.node l w r)).isSome := by
  rw [nanSearch]
  split
  · rfl
  · split <;> simp

theorem PyNum.eq_comm' (v w : PyNum N) : v.eq w = w.eq v := by
  cases v <;> cases w <;> simp [PyNum.eq, _root_.eq_comm]

theorem nanContains_left {a b : N} (h : a < b) (l r : BTree (PyNum N)) :
    nanContains (.num a) (.node l (.num b) r) = nanContains (.num a) l := by
  have e : decide (a = b) = false := by simpa using h.ne
  have e' : decide (b = a) = false := by simpa using h.ne'
  cases l with
  | nil => simp [nanContains, nanSearch, PyNum.eq, PyNum.lt, e, e', h]
  | node ll lv lr =>
    have := nanSearch_isSome (.num a) ll lv lr
    obtain ⟨w, hw⟩ := Option.isSome_iff_exists.1 this
    rw [nanContains, nanContains, nanSearch, hw]
    simp [PyNum.eq, PyNum.lt, e, h]

theorem nanContains_right {a : N} {w : PyNum N} (h1 : (PyNum.num a).eq w = false) (h2 : (PyNum.num a).lt w = false)
    (l r : BTree (PyNum N)) : nanContains (.num a) (.node l w r) = nanContains (.num a) r := by
  have h3 : w.eq (.num a) = false := by rw [PyNum.eq_comm', h1]
  cases r with
  | nil => simp [nanContains, nanSearch, h1, h2, h3]
  | node rl rv rr =>
    have := nanSearch_isSome (.num a) rl rv rr
    obtain ⟨x, hx⟩ := Option.isSome_iff_exists.1 this
    rw [nanContains, nanContains, nanSearch, hx]
    simp [h1, h2]

theorem nanContains_num {a : N} : ∀ {t : BTree (PyNum N)}, NanOrd t →
    nanContains (.num a) t = decide (.num a ∈ t.inorder)
  | .nil, _ => by simp [nanContains, nanSearch, BTree.inorder]
  | .node l .nan r, ⟨hl, hr⟩ => by
    rw [nanContains_right rfl rfl, nanContains_num hr, hl]
    simp [BTree.inorder]
  | .node l (.num b) r, ⟨hl, hr, hn, h1, h2⟩ => by
    rcases lt_trichotomy a b with h | h | h
    · rw [nanContains_left h, nanContains_num hl]
      have : ¬ .num a ∈ r.inorder := fun hm => absurd (h2 a hm) (not_lt.2 h.le)
      simp [BTree.inorder, this, h.ne]
    · subst h
      simp [nanContains, nanSearch, PyNum.eq, BTree.inorder]
    · rw [nanContains_right (by simpa [PyNum.eq] using h.ne') (by simpa [PyNum.lt] using h.le), nanContains_num hr]
      have : ¬ .num a ∈ l.inorder := fun hm => absurd (h1 a hm) (not_lt.2 h.le)
      simp [BTree.inorder, this, h.ne']

theorem putNan_skip {v : PyNum N} {ys : List (PyNum N)} (zs : List (PyNum N)) (h : ∀ x ∈ ys, smaller v x = false) :
    putNan v (ys ++ zs) = ys ++ putNan v zs := by
  induction ys with
  | nil => rfl
  | cons y ys ih =>
    have hy := h y (by simp)
    have := ih fun x hx => h x (by simp [hx])
    simp only [putNan] at this ⊢
    simp only [List.cons_append, List.takeWhile_cons, List.dropWhile_cons, hy, Bool.not_false, if_true, this]

theorem putNan_stop {v y : PyNum N} (ys zs : List (PyNum N)) (h : smaller v y = true) :
    putNan v (ys ++ y :: zs) = putNan v ys ++ y :: zs := by
  induction ys with
  | nil => simp [putNan, h]
  | cons x ys ih =>
    simp only [putNan] at ih ⊢
    simp only [List.cons_append, List.takeWhile_cons, List.dropWhile_cons]
    cases smaller v x
    · simpa using ih
    · simp

theorem mem_putNan {v x : PyNum N} {xs : List (PyNum N)} : x ∈ putNan v xs ↔ x = v ∨ x ∈ xs := by
  have : x ∈ xs ↔ x ∈ xs.takeWhile (fun x => !smaller v x) ∨ x ∈ xs.dropWhile (fun x => !smaller v x) := by
    rw [← List.mem_append, List.takeWhile_append_dropWhile]
  simp only [putNan, List.mem_append, List.mem_cons, this]
  tauto

theorem putNan_length (v : PyNum N) (xs : List (PyNum N)) : (putNan v xs).length = xs.length + 1 := by
  have := congrArg List.length (List.takeWhile_append_dropWhile (p := fun x => !smaller v x) (l := xs))
  simp only [List.length_append] at this
  simp only [putNan, List.length_append, List.length_cons]
  omega

theorem nanInsert_found {v : PyNum N} : ∀ {t : BTree (PyNum N)}, NanOrd t → v ≠ .nan → v ∈ t.inorder →
    nanInsert v t = (t, false)
  | .nil, _, _, h => by simp [BTree.inorder] at h
  | .node l .nan r, ⟨hl, hr⟩, hv, h => by
    subst hl
    have hm : v ∈ r.inorder := by simpa [BTree.inorder, hv] using h
    cases v with
    | nan => exact absurd rfl hv
    | num a => simp [nanInsert, PyNum.eq, PyNum.lt, nanInsert_found hr hv hm]
  | .node l (.num b) r, ⟨hl, hr, hn, h1, h2⟩, hv, h => by
    cases v with
    | nan => exact absurd rfl hv
    | num a =>
      simp only [BTree.inorder, List.mem_append, List.mem_singleton, PyNum.num.injEq] at h
      rcases h with (h | h) | h
      · have := h1 a h
        simp [nanInsert, PyNum.eq, PyNum.lt, nanInsert_found hl hv h, this, this.ne]
      · simp [nanInsert, PyNum.eq, h]
      · have := h2 a h
        simp [nanInsert, PyNum.eq, PyNum.lt, nanInsert_found hr hv h, this.ne', this.le]

theorem nanInsert_new {v : PyNum N} : ∀ {t : BTree (PyNum N)}, NanOrd t → (v = .nan ∨ v ∉ t.inorder) →
    (nanInsert v t).1.inorder = putNan v t.inorder ∧ (nanInsert v t).2 = true ∧ NanOrd (nanInsert v t).1
  | .nil, _, _ => by
    refine ⟨rfl, rfl, ?_⟩
    cases v
    · exact ⟨rfl, trivial⟩
    · exact ⟨trivial, trivial, by simp [BTree.inorder], by simp [BTree.inorder], by simp [BTree.inorder]⟩
  | .node l .nan r, ⟨hl, hr⟩, h => by
    subst hl
    obtain ⟨i1, i2, i3⟩ := nanInsert_new (v := v) hr (by
      rcases h with h | h
      · exact .inl h
      · exact .inr fun hm => h (by simp [BTree.inorder, hm]))
    have e : nanInsert v (.node .nil .nan r) = (.node .nil .nan (nanInsert v r).1, (nanInsert v r).2) := by
      cases v <;> rfl
    rw [e]
    refine ⟨?_, i2, rfl, i3⟩
    simp only [BTree.inorder, i1]
    rw [putNan_skip _ (by intro x hx; simp at hx; subst hx; cases v <;> rfl)]
  | .node l (.num b) r, ⟨hl, hr, hn, h1, h2⟩, h => by
    by_cases hlt : smaller v (.num b) = true
    · obtain ⟨a, rfl⟩ : ∃ a, v = .num a := by cases v with
        | nan => cases hlt
        | num a => exact ⟨a, rfl⟩
      have hab : a < b := by simpa [smaller] using hlt
      have hm : .num a ∉ l.inorder := fun hm => by
        rcases h with h | h
        · cases h
        · exact h (by simp [BTree.inorder, hm])
      obtain ⟨i1, i2, i3⟩ := nanInsert_new (v := .num a) hl (.inr hm)
      have e : nanInsert (.num a) (.node l (.num b) r) =
          (.node (nanInsert (.num a) l).1 (.num b) r, (nanInsert (.num a) l).2) := by
        simp [nanInsert, PyNum.eq, PyNum.lt, hab, hab.ne]
      rw [e]
      refine ⟨?_, i2, i3, hr, ?_, ?_, h2⟩
      · simp only [BTree.inorder, i1, List.append_assoc, List.singleton_append]
        exact (putNan_stop _ _ hlt).symm
      · rw [i1, mem_putNan]; simp [hn]
      · intro x hx
        rw [i1, mem_putNan] at hx
        rcases hx with hx | hx
        · cases hx; exact hab
        · exact h1 x hx
    · have hne : v ≠ .num b := by
        rintro rfl
        rcases h with h | h
        · cases h
        · exact h (by simp [BTree.inorder])
      have hm : v = .nan ∨ v ∉ r.inorder := by
        rcases h with h | h
        · exact .inl h
        · exact .inr fun hm => h (by simp [BTree.inorder, hm])
      obtain ⟨i1, i2, i3⟩ := nanInsert_new hr hm
      have e : nanInsert v (.node l (.num b) r) = (.node l (.num b) (nanInsert v r).1, (nanInsert v r).2) := by
        cases v with
        | nan => rfl
        | num a =>
          have h3 : a ≠ b := fun h => hne (h ▸ rfl)
          have h4 : ¬ a < b := by simpa [smaller] using hlt
          simp [nanInsert, PyNum.eq, PyNum.lt, h3, h4]
      rw [e]
      refine ⟨?_, i2, hl, i3, hn, h1, ?_⟩
      · simp only [BTree.inorder, i1]
        rw [putNan_skip]
        intro x hx
        simp only [List.mem_append, List.mem_singleton] at hx
        rcases hx with hx | rfl
        · cases x with
          | nan => cases v <;> rfl
          | num x =>
            cases v with
            | nan => rfl
            | num a =>
              have h4 : b ≤ a := by simpa [smaller] using hlt
              have := h1 x hx
              simpa [smaller] using (this.trans_le h4).le
        · simpa using hlt
      · intro x hx
        rw [i1, mem_putNan] at hx
        rcases hx with rfl | hx
        · have h4 : b ≤ x := by simpa [smaller] using hlt
          exact lt_of_le_of_ne h4 fun h => hne (h ▸ rfl)
        · exact h2 x hx

theorem nanMin_head : ∀ t : BTree (PyNum N), nanMin t = t.inorder.head?
  | .nil => rfl
  | .node l w r => by
    rw [nanMin, nanMin_head l, BTree.inorder]
    cases l.inorder <;> simp

theorem nanMax_last : ∀ t : BTree (PyNum N), nanMax t = t.inorder.getLast?
  | .nil => rfl
  | .node l w r => by
    rw [nanMax, nanMax_last r, BTree.inorder, List.getLast?_append, List.getLast?_append]
    simp

/-- the object holds these numbers -/
def NanInv (t : NanBst N) (xs : List (PyNum N)) : Prop :=
  NanOrd t.root ∧ t.root.inorder = xs ∧ t.length = xs.length

theorem nanExec_step {t : NanBst N} {xs : List (PyNum N)} (I : NanInv t xs) {op : BstOp (PyNum N)} (h : Keeping op) :
    (t.exec op).1 = (nanSpec xs op).1 ∧ NanInv (t.exec op).2 (nanSpec xs op).2 := by
  obtain ⟨ho, rfl, hl⟩ := I
  have I : NanInv t t.root.inorder := ⟨ho, rfl, hl⟩
  cases op with
  | insert v =>
    cases v with
    | none => exact ⟨rfl, I⟩
    | other => exact ⟨rfl, I⟩
    | num v =>
      by_cases hm : v ≠ .nan ∧ v ∈ t.root.inorder
      · simp only [NanBst.exec, nanSpec, nanInsert_found ho hm.1 hm.2, if_pos hm]
        exact ⟨rfl, I⟩
      · obtain ⟨i1, i2, i3⟩ := nanInsert_new (v := v) ho (by tauto)
        simp only [NanBst.exec, nanSpec, if_neg hm, i2]
        refine ⟨rfl, i3, i1, ?_⟩
        simp only [if_true, putNan_length, hl]
        push_cast; rfl
  | remove v =>
    cases v with
    | none => exact ⟨rfl, I⟩
    | other => exact ⟨rfl, I⟩
    | num v =>
      cases v with
      | nan => simp only [NanBst.exec, nanSpec, nanRemove_nan]; exact ⟨rfl, I⟩
      | num v => exact h.elim
  | contains v =>
    cases v with
    | none => exact ⟨rfl, I⟩
    | other => exact ⟨rfl, I⟩
    | num v =>
      refine ⟨?_, I⟩
      cases v with
      | nan => simp [NanBst.exec, nanSpec, nanContains_nan]
      | num v => simp [NanBst.exec, nanSpec, nanContains_num ho]
  | getMin => simp only [NanBst.exec, nanSpec, nanMin_head]; exact ⟨rfl, I⟩
  | getMax => simp only [NanBst.exec, nanSpec, nanMax_last]; exact ⟨rfl, I⟩
  | len => exact ⟨by simp only [NanBst.exec, nanSpec, hl], I⟩
  | isEmpty =>
    refine ⟨?_, I⟩
    simp only [NanBst.exec, nanSpec]
    cases t.root <;> simp [BTree.inorder]
  | clear => exact ⟨rfl, trivial, rfl, rfl⟩
  | inorder => exact ⟨rfl, I⟩
  | invert => exact h.elim

theorem nanExecs_spec : ∀ (ops : List (BstOp (PyNum N))), (∀ op ∈ ops, Keeping op) → ∀ (t : NanBst N) {xs},
    NanInv t xs → (NanBst.execs ops t).1 = (nanSpecs ops xs).1
  | [], _, _, _, _ => rfl
  | op :: ops, h, t, xs, I => by
    obtain ⟨e, I'⟩ := nanExec_step I (h op (by simp))
    rw [NanBst.execs, nanSpecs, e, nanExecs_spec ops (fun o ho => h o (by simp [ho])) _ I']

theorem nanExecs_inv : ∀ (ops : List (BstOp (PyNum N))), (∀ op ∈ ops, Keeping op) → ∀ (t : NanBst N) {xs},
    NanInv t xs → NanInv (NanBst.execs ops t).2 (nanSpecs ops xs).2
  | [], _, _, _, I => I
  | op :: ops, h, t, xs, I => nanExecs_inv ops (fun o ho => h o (by simp [ho])) _ (nanExec_step I (h op (by simp))).2

theorem nanSpec_mem (op : BstOp (PyNum N)) (xs : List (PyNum N)) (v : N) :
    .num v ∈ (nanSpec xs op).2 ↔ op = .insert (.num (.num v)) ∨ op ≠ .clear ∧ .num v ∈ xs := by
  cases op with
  | insert a =>
    cases a with
    | none => simp [nanSpec]
    | other => simp [nanSpec]
    | num a =>
      simp only [nanSpec]
      split
      · rename_i h
        simp only [BstOp.insert.injEq, NumArg.num.injEq, ne_eq, reduceCtorEq, not_false_eq_true, true_and]
        constructor
        · exact .inr
        · rintro (rfl | h')
          · exact h.2
          · exact h'
      · simp [mem_putNan, eq_comm]
  | clear => simp [nanSpec]
  | remove a => simp [nanSpec]
  | contains a => cases a <;> simp [nanSpec]
  | _ => simp [nanSpec]

theorem nanSpecs_mem' (v : N) : ∀ (ops : List (BstOp (PyNum N))) (xs : List (PyNum N)),
    .num v ∈ (nanSpecs ops xs).2 ↔ .insert (.num (.num v)) ∈ sinceClear ops ∨ .clear ∉ ops ∧ .num v ∈ xs
  | [], xs => by simp [nanSpecs, sinceClear]
  | op :: ops, xs => by
    rw [nanSpecs, nanSpecs_mem' v ops, nanSpec_mem, sinceClear]
    by_cases hc : .clear ∈ ops
    · simp [hc]
    · have : ∀ ops : List (BstOp (PyNum N)), .clear ∉ ops → sinceClear ops = ops := by
        intro ops
        induction ops with
        | nil => intro; rfl
        | cons o ops ih =>
          intro h
          simp only [List.mem_cons, not_or] at h
          rw [sinceClear, if_neg h.2, if_neg (Ne.symm h.1)]
      rw [this ops hc, if_neg hc]
      by_cases ho : op = .clear
      · subst ho; simp [hc]
      · rw [if_neg ho]
        have h2 : ¬ BstOp.clear = op := fun h => ho h.symm
        simp only [hc, not_false_eq_true, true_and, List.mem_cons, ne_eq, ho, not_or, eq_comm (a := op), h2]
        tauto

theorem nanSpecs_mem (v : N) (ops : List (BstOp (PyNum N))) :
    .num v ∈ (nanSpecs ops []).2 ↔ .insert (.num (.num v)) ∈ sinceClear ops := by
  rw [nanSpecs_mem']; simp

/-! ## Without `nan` -/

/-- the same argument among the numbers with `nan` -/
def numArg' : NumArg N → NumArg (PyNum N)
  | .num v => .num (.num v)
  | .none => .none
  | .other => .other

/-- the same call -/
def numOp : BstOp N → BstOp (PyNum N)
  | .insert v => .insert (numArg' v)
  | .remove v => .remove (numArg' v)
  | .contains v => .contains (numArg' v)
  | .getMin => .getMin
  | .getMax => .getMax
  | .len => .len
  | .isEmpty => .isEmpty
  | .clear => .clear
  | .inorder => .inorder
  | .invert => .invert

/-- the same value -/
def numVal : BstVal N → BstVal (PyNum N)
  | .unit => .unit
  | .bool b => .bool b
  | .int n => .int n
  | .num v => .num (.num v)
  | .list vs => .list (vs.map .num)

/-- the same result -/
def numRes : BstRes N → BstRes (PyNum N)
  | .error e => .error e
  | .ok (v, w) => .ok (numVal v, w)

/-- the same tree -/
def numTree : BTree (N × Unit) → BTree (PyNum N)
  | .nil => .nil
  | .node l w r => .node (numTree l) (.num w.1) (numTree r)

theorem numTree_inorder : ∀ t : BTree (N × Unit), (numTree t).inorder = t.keys.map .num
  | .nil => rfl
  | .node l w r => by
    simp only [numTree, BTree.inorder, numTree_inorder l, numTree_inorder r, BTree.keys, List.map_append, List.map_cons,
      List.map_nil]

theorem numTree_invert : ∀ t : BTree (N × Unit), numTree t.invert = (numTree t).invert
  | .nil => rfl
  | .node l w r => by simp only [numTree, BTree.invert, numTree_invert l, numTree_invert r]

theorem numTree_insert (v : N) : ∀ t : BTree (N × Unit),
    nanInsert (.num v) (numTree t) = (numTree (t.insertNode (v, ())).1, (t.insertNode (v, ())).2)
  | .nil => rfl
  | .node l w r => by
    have il := numTree_insert v l
    have ir := numTree_insert v r
    rw [numTree, nanInsert, BTree.insertNode.eq_def, il, ir]
    by_cases h1 : v = w.1
    · simp [PyNum.eq, h1, numTree]
    · by_cases h2 : v < w.1
      · cases l <;> simp [PyNum.eq, PyNum.lt, h1, h2, numTree, BTree.insertNode]
      · cases r <;> simp [PyNum.eq, PyNum.lt, h1, h2, numTree, BTree.insertNode]

theorem numTree_search (v : N) : ∀ t : BTree (N × Unit),
    nanSearch (.num v) (numTree t) = (t.dataAt (t.search v)).map .num
  | .nil => rfl
  | .node l w r => by
    have il := numTree_search v l
    have ir := numTree_search v r
    rw [numTree, nanSearch, BTree.search.eq_def, il, ir]
    by_cases h1 : v = w.1
    · simp [PyNum.eq, h1, BTree.dataAt, BTree.walk]
    · by_cases h2 : v < w.1
      · cases l with
        | nil => simp [PyNum.eq, PyNum.lt, h1, h2, BTree.dataAt, BTree.walk, BTree.search]
        | node a b c =>
          have := nanSearch_isSome (.num v) (numTree a) (.num b.1) (numTree c)
          rw [numTree] at il
          rw [il] at this
          obtain ⟨x, hx⟩ := Option.isSome_iff_exists.1 this
          rw [hx]
          simp [PyNum.eq, PyNum.lt, h1, h2]
          exact Option.map_eq_some_iff.1 hx
      · cases r with
        | nil => simp [PyNum.eq, PyNum.lt, h1, h2, BTree.dataAt, BTree.walk, BTree.search]
        | node a b c =>
          have := nanSearch_isSome (.num v) (numTree a) (.num b.1) (numTree c)
          rw [numTree] at ir
          rw [ir] at this
          obtain ⟨x, hx⟩ := Option.isSome_iff_exists.1 this
          rw [hx]
          simp [PyNum.eq, PyNum.lt, h1, h2]
          exact Option.map_eq_some_iff.1 hx

theorem numTree_min : ∀ t : BTree (N × Unit), nanMin (numTree t) = t.minNode.map (.num ·.1)
  | .nil => rfl
  | .node .nil w r => rfl
  | .node (.node a b c) w r => by
    have := numTree_min (.node a b c)
    rw [numTree, nanMin, this, BTree.minNode]
    cases h : (BTree.node a b c).minNode with
    | none => exact absurd h (by
        have : ∀ t : BTree (N × Unit), t ≠ .nil → t.minNode ≠ none := by
          intro t
          induction t with
          | nil => intro h; exact absurd rfl h
          | node l w r il ir => cases l with
            | nil => intro _; simp [BTree.minNode]
            | node a b c => intro _; rw [BTree.minNode]; exact il (by simp)
        exact this _ (by simp))
    | some x => rfl

theorem numTree_max : ∀ t : BTree (N × Unit), nanMax (numTree t) = t.maxNode.map (.num ·.1)
  | .nil => rfl
  | .node l w .nil => rfl
  | .node l w (.node a b c) => by
    have := numTree_max (.node a b c)
    rw [numTree, nanMax, this, BTree.maxNode]
    cases h : (BTree.node a b c).maxNode with
    | none => exact absurd h (by
        have : ∀ t : BTree (N × Unit), t ≠ .nil → t.maxNode ≠ none := by
          intro t
          induction t with
          | nil => intro h; exact absurd rfl h
          | node l w r il ir => cases r with
            | nil => intro _; simp [BTree.maxNode]
            | node a b c => intro _; rw [BTree.maxNode]; exact ir (by simp)
        exact this _ (by simp))
    | some x => rfl

theorem numTree_sink : ∀ t : BTree (N × Unit), nanSink (numTree t) = numTree t.sink
  | .nil => rfl
  | .node .nil _ .nil => rfl
  | .node (.node a b c) w r => by
    have := numTree_sink (.node a b c)
    rw [numTree] at this
    rw [numTree, numTree, nanSink, this, BTree.sink, numTree]
  | .node .nil w (.node a b c) => by
    have := numTree_sink (.node a b c)
    rw [numTree] at this
    rw [numTree, numTree, numTree, nanSink, this, BTree.sink, numTree, numTree]

theorem numTree_takeMin : ∀ t : BTree (N × Unit),
    nanTakeMin (numTree t) = t.takeMin.map fun p => (.num p.1, numTree p.2)
  | .nil => rfl
  | .node .nil w r => by
    have := numTree_sink (.node .nil w r)
    rw [numTree, numTree] at this
    rw [numTree, numTree, nanTakeMin, this, BTree.takeMin]; rfl
  | .node (.node a b c) w r => by
    have := numTree_takeMin (.node a b c)
    rw [numTree] at this
    rw [numTree, numTree, nanTakeMin, this, BTree.takeMin]
    cases (BTree.node a b c).takeMin <;> rfl

theorem numTree_takeMax : ∀ t : BTree (N × Unit),
    nanTakeMax (numTree t) = t.takeMax.map fun p => (.num p.1, numTree p.2)
  | .nil => rfl
  | .node l w .nil => by
    have := numTree_sink (.node l w .nil)
    rw [numTree, numTree] at this
    rw [numTree, numTree, nanTakeMax, this, BTree.takeMax]; rfl
  | .node l w (.node a b c) => by
    have := numTree_takeMax (.node a b c)
    rw [numTree] at this
    rw [numTree, numTree, nanTakeMax, this, BTree.takeMax]
    cases (BTree.node a b c).takeMax <;> rfl

theorem numTree_removeRoot : ∀ t : BTree (N × Unit), nanRemoveRoot (numTree t) = numTree t.removeRoot
  | .nil => rfl
  | .node .nil _ .nil => rfl
  | .node l w (.node a b c) => by
    have := numTree_takeMin (.node a b c)
    rw [numTree] at this
    rw [numTree, numTree, nanRemoveRoot, this, BTree.removeRoot]
    cases (BTree.node a b c).takeMin <;> rfl
  | .node (.node a b c) w .nil => by
    have := numTree_takeMax (.node a b c)
    rw [numTree] at this
    rw [numTree, numTree, numTree, nanRemoveRoot, this, BTree.removeRoot]
    cases (BTree.node a b c).takeMax <;> rfl

theorem remove_node (v : N) (l : BTree (N × Unit)) (w r) : (BTree.node l w r).remove v =
    if v = w.1 then ((BTree.node l w r).removeRoot, true)
    else if v < w.1 then (.node (l.remove v).1 w r, (l.remove v).2)
    else (.node l w (r.remove v).1, (r.remove v).2) := by
  unfold BTree.remove
  rw [BTree.search.eq_def]
  by_cases h1 : v = w.1
  · simp [h1, BTree.dataAt, BTree.walk, BTree.replace]
  · by_cases h2 : v < w.1
    · cases l with
      | nil => simp [h1, h2, BTree.dataAt, BTree.walk, BTree.search, Ne.symm h1]
      | node a b c =>
        simp only [h1, h2, if_true, if_false]
        have e : ∀ p, (BTree.node (BTree.node a b c) w r).dataAt (false :: p) = (BTree.node a b c).dataAt p := fun _ => rfl
        rw [e]
        split <;> rfl
    · cases r with
      | nil => simp [h1, h2, BTree.dataAt, BTree.walk, BTree.search, Ne.symm h1]
      | node a b c =>
        simp only [h1, h2, if_false]
        have e : ∀ p, (BTree.node l w (BTree.node a b c)).dataAt (true :: p) = (BTree.node a b c).dataAt p := fun _ => rfl
        rw [e]
        split <;> rfl

theorem numTree_remove (v : N) : ∀ t : BTree (N × Unit),
    nanRemove (.num v) (numTree t) = (numTree (t.remove v).1, (t.remove v).2)
  | .nil => rfl
  | .node l w r => by
    have := numTree_removeRoot (.node l w r)
    rw [numTree] at this
    rw [numTree, nanRemove, numTree_remove v l, numTree_remove v r, this, remove_node]
    by_cases h1 : v = w.1
    · simp [PyNum.eq, h1]
    · by_cases h2 : v < w.1
      · simp [PyNum.eq, PyNum.lt, h1, h2, numTree]
      · simp [PyNum.eq, PyNum.lt, h1, h2, numTree]

/-- the same object -/
def numBst (t : Bst N Unit) : NanBst N := ⟨numTree t.root, t.length⟩

theorem num_exec (t : Bst N Unit) (op : BstOp N) :
    (numBst t).exec (numOp op) = (numRes (t.exec op).1, numBst (t.exec op).2) := by
  obtain ⟨root, len⟩ := t
  cases op with
  | insert v =>
    cases v with
    | none => rfl
    | other => rfl
    | num v =>
      have := numTree_insert v root
      simp only [numOp, numArg', NanBst.exec, numBst, this, Bst.exec, validNum, Bst.insertNum, numRes, numVal]
      cases root <;> rfl
  | remove v =>
    cases v with
    | none => rfl
    | other => rfl
    | num v =>
      have := numTree_remove v root
      simp only [numOp, numArg', NanBst.exec, numBst, this, Bst.exec, numRes, numVal]
      cases root with
      | nil => rfl
      | node l w r =>
        cases l with
        | nil =>
          cases r with
          | nil =>
            rw [remove_node]
            simp only [Bst.remove]
            by_cases h1 : v = w.1
            · simp [h1, BTree.removeRoot, numTree]
            · simp [h1, BTree.remove, BTree.search, BTree.dataAt, BTree.walk]
          | node a b c => rfl
        | node a b c => rfl
  | contains v =>
    cases v with
    | none => rfl
    | other => rfl
    | num v =>
      have := numTree_search v root
      simp only [numOp, numArg', NanBst.exec, numBst, nanContains, this, Bst.exec, Bst.contains, numRes, numVal]
      cases root with
      | nil => rfl
      | node l w r =>
        simp only
        cases h : (BTree.node l w r).dataAt ((BTree.node l w r).search v) with
        | none => simp
        | some x => simp [PyNum.eq]
  | getMin =>
    simp only [numOp, NanBst.exec, numBst, numTree_min, Bst.exec, Bst.getMin]
    cases root.minNode <;> rfl
  | getMax =>
    simp only [numOp, NanBst.exec, numBst, numTree_max, Bst.exec, Bst.getMax]
    cases root.maxNode <;> rfl
  | len => rfl
  | isEmpty => cases root <;> rfl
  | clear => rfl
  | inorder => simp only [numOp, NanBst.exec, numBst, Bst.exec, numRes, numVal, numTree_inorder]
  | invert => simp only [numOp, NanBst.exec, numBst, Bst.exec, numRes, numVal, numTree_invert]

theorem nan_same : ∀ (ops : List (BstOp N)) (t : Bst N Unit),
    (NanBst.execs (ops.map numOp) (numBst t)).1 = (Bst.execs ops t).1.map numRes
  | [], _ => rfl
  | op :: ops, t => by
    simp only [List.map_cons, NanBst.execs, Bst.execs, num_exec, nan_same ops]

end Extra
