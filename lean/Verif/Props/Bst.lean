import Verif.Trees.BstProofs
import Mathlib.Order.Fin.Basic
import Batteries.Lean.Except

/-!
# Properties C39-C42: BST

`exec`/`execs` run API calls on the model (Verif/Trees/Bst.lean).  `SearchTree`, `Holds`, `inSet` and
`RemovalSafe` are the specification (Verif/Trees/BstSpec.lean).
-/

set_option linter.unusedSectionVars false

namespace Extra
variable {N X : Type} [LinearOrder N]

/-! ## C39 -/

theorem insertNum_spec (t : Bst N X) (v : N) (x : X) (hs : SearchTree t.root) :
    SearchTree (t.insertNum v x).1.root ∧
    (∀ y, y ∈ (t.insertNum v x).1.root.keys ↔ y = v ∨ y ∈ t.root.keys) ∧
    ((t.insertNum v x).2 = true ↔ v ∈ t.root.keys) ∧
    (v ∈ t.root.keys → (t.insertNum v x).1 = t) ∧
    (t.length = t.root.keys.length →
      (t.insertNum v x).1.length = (t.insertNum v x).1.root.keys.length) := by
  obtain ⟨t, n⟩ := t
  cases t with
  | nil => simp [Bst.insertNum, SearchTree, BTree.inorder]
  | node l w r =>
    have hf := insertNode_flag (v, x) (.node l w r) hs
    have hl := insertNode_length (v, x) (.node l w r)
    refine ⟨insertNode_sorted (v, x) _ hs, fun y => insertNode_mem (v, x) _ y, ?_, fun hv => ?_,
      fun e => ?_⟩
    · simp only [Bst.insertNum, Bool.not_eq_true', ← Bool.not_eq_true, hf, not_not]
    · have h2 : ((BTree.node l w r).insertNode (v, x)).2 = false := by
        rw [← Bool.not_eq_true, hf]; exact fun k => k hv
      simp only [Bst.insertNum, h2, insertNode_present _ _ h2]; simp
    · simp only [Bst.insertNum] at e ⊢
      split_ifs with h <;> simp only [h, if_true, if_false, Bool.false_eq_true] at hl <;> omega

private theorem insertNum_length (t : Bst N X) (v : N) (x : X) (h : t.length = t.root.size) :
    (t.insertNum v x).1.length = (t.insertNum v x).1.root.size := by
  obtain ⟨t, n⟩ := t
  rw [← BTree.keys_length_size] at *
  cases t with
  | nil => simp [Bst.insertNum] at *; omega
  | node l w r =>
    have hl := insertNode_length (v, x) (.node l w r)
    simp only [Bst.insertNum] at h ⊢
    split_ifs with hh <;> simp only [hh, if_true, if_false, Bool.false_eq_true] at hl <;> omega

private theorem inserts_spec : ∀ (vs : List (NumArg N)) (t : Bst N Unit), SearchTree t.root →
    t.length = t.root.keys.length →
    SearchTree (Bst.execs (vs.map .insert) t).2.root ∧
    (∀ x, x ∈ (Bst.execs (vs.map .insert) t).2.root.keys ↔ x ∈ t.root.keys ∨ .num x ∈ vs) ∧
    (Bst.execs (vs.map .insert) t).2.length = (Bst.execs (vs.map .insert) t).2.root.keys.length
  | [], t, h, e => ⟨h, by simp [Bst.execs], e⟩
  | v :: vs, t, h, e => by
    cases v with
    | num v =>
      obtain ⟨a1, a2, _, _, a5⟩ := insertNum_spec t v () h
      obtain ⟨b1, b2, b3⟩ := inserts_spec vs (t.insertNum v ()).1 a1 (a5 e)
      refine ⟨b1, fun x => ?_, b3⟩
      refine (b2 x).trans ?_
      rw [a2]
      simp only [List.mem_cons, NumArg.num.injEq]
      tauto
    | none =>
      obtain ⟨b1, b2, b3⟩ := inserts_spec vs t h e
      exact ⟨b1, fun x => (b2 x).trans (by simp), b3⟩
    | other =>
      obtain ⟨b1, b2, b3⟩ := inserts_spec vs t h e
      exact ⟨b1, fun x => (b2 x).trans (by simp), b3⟩

/-- C39: after any sequence of inserts into an empty tree `inorder_traverse` returns the strictly
increasing list of the numbers inserted, and `len` its length.  Values that are not numbers leave no
trace. -/
theorem C39_inserts (vs : List (NumArg N)) :
    ∃ ks : List N, ks.Pairwise (· < ·) ∧ (∀ x, x ∈ ks ↔ .num x ∈ vs) ∧
      ((Bst.execs (vs.map .insert) Bst.empty).2.exec .inorder).1 = .ok (.list ks, false) ∧
      ((Bst.execs (vs.map .insert) Bst.empty).2.exec .len).1 = .ok (.int ks.length, false) := by
  obtain ⟨a, b, c⟩ := inserts_spec vs Bst.empty (by simp [Bst.empty, SearchTree, BTree.inorder])
    (by simp [Bst.empty])
  refine ⟨_, a, fun x => (b x).trans (by simp [Bst.empty]), rfl, ?_⟩
  simp only [Bst.exec, c]
  rfl

example : ((Bst.execs (([.num 5, .num 2, .none, .num 9, .num 2] : List (NumArg (Fin 20))).map .insert)
    Bst.empty).2.exec .inorder).1 = .ok (.list [2, 5, 9], false) := by decide +kernel

/-- C39: inserting into a search tree a number it holds changes nothing and warns; another number is
added, without a warning; a value that is not a number raises and changes nothing. -/
theorem C39_insert (t : Bst N Unit) (hs : SearchTree t.root) (v : NumArg N) :
    match v with
    | .num v =>
      (Holds t.root v → t.exec (.insert (.num v)) = (.ok (.unit, true), t)) ∧
      (¬ Holds t.root v → (t.exec (.insert (.num v))).1 = .ok (.unit, false) ∧
        SearchTree (t.exec (.insert (.num v))).2.root ∧
        ∀ x, Holds (t.exec (.insert (.num v))).2.root x ↔ x = v ∨ Holds t.root x)
    | .none => t.exec (.insert .none) = (.error .valueError, t)
    | .other => t.exec (.insert .other) = (.error .typeError, t) := by
  cases v with
  | none => rfl
  | other => rfl
  | num v =>
    obtain ⟨a1, a2, a3, a4, _⟩ := insertNum_spec t v () hs
    simp only [holds_iff]
    refine ⟨fun h => ?_, fun h => ⟨?_, a1, a2⟩⟩
    · simp only [Bst.exec, validNum, a4 h, a3.2 h]
    · have : (t.insertNum v ()).2 = false := by rw [← Bool.not_eq_true, a3]; exact h
      simp only [Bst.exec, validNum, this]

private theorem fromLoop_eq : ∀ (ns : List N) (t : Bst N Unit),
    bstFromLoop (ns.map .num) t = .ok (Bst.execs ((ns.map .num).map .insert) t).2
  | [], t => rfl
  | n :: ns, t => by
    simp only [List.map_cons, bstFromLoop, validNum, Bst.execs, Bst.exec]
    exact fromLoop_eq ns _

/-- C39: `BST(iterable)` of numbers gives a search tree holding exactly these. -/
theorem C39_constructor (ns : List N) : ∃ t, bstFrom (ns.map .num) = .ok t ∧ SearchTree t.root ∧
    (∀ x, Holds t.root x ↔ x ∈ ns) ∧ t.length = t.root.size := by
  obtain ⟨a, b, c⟩ := inserts_spec (ns.map .num) Bst.empty
    (by simp [Bst.empty, SearchTree, BTree.inorder]) (by simp [Bst.empty])
  refine ⟨_, fromLoop_eq ns _, a, fun x => ?_, by rw [c, BTree.keys_length_size]⟩
  rw [holds_iff]
  exact (b x).trans (by simp [Bst.empty])

example : (bstFrom [.num (5 : Fin 20), .num 2, .num 9]).map (·.root.keys) = .ok [2, 5, 9] := by
  decide +kernel

/-! ## C40 -/

/-- C40: in a search tree `in` finds exactly the numbers held, and nothing that is not a number. -/
theorem C40_contains (t : Bst N Unit) (hs : SearchTree t.root) (v : NumArg N) :
    ∃ b, t.exec (.contains v) = (.ok (.bool b, false), t) ∧
      (b = true ↔ ∃ n, v = .num n ∧ Holds t.root n) := by
  refine ⟨_, rfl, ?_⟩
  cases v with
  | none => simp [Bst.contains]
  | other => simp [Bst.contains]
  | num v =>
    simp only [NumArg.num.injEq, exists_eq_left', holds_iff]
    rw [← dataAt_search v t.root hs]
    obtain ⟨t, n⟩ := t
    cases t with
    | nil => simp [Bst.contains, BTree.search, BTree.dataAt, BTree.walk]
    | node l w r => simp only [Bst.contains, decide_eq_true_eq]

/-- C40: `get_min` of a search tree is its least number, `IndexError` when it is empty. -/
theorem C40_min (t : Bst N Unit) (hs : SearchTree t.root) :
    (t.root = .nil → t.exec .getMin = (.error .indexError, t)) ∧
    (t.root ≠ .nil → ∃ m, t.exec .getMin = (.ok (.num m, false), t) ∧ Holds t.root m ∧
      ∀ x, Holds t.root x → m ≤ x) := by
  obtain ⟨h1, h2⟩ := minNode_spec t.root hs
  refine ⟨fun e => ?_, fun e => ?_⟩
  · simp only [Bst.exec, Bst.getMin, h1.2 e, Except.map]
  · cases hm : t.root.minNode with
    | none => exact absurd (h1.1 hm) e
    | some m =>
      refine ⟨m.1, by simp only [Bst.exec, Bst.getMin, hm, Except.map], ?_⟩
      simp only [holds_iff]
      exact h2 m hm

/-- C40: `get_max` of a search tree is its greatest number, `IndexError` when it is empty. -/
theorem C40_max (t : Bst N Unit) (hs : SearchTree t.root) :
    (t.root = .nil → t.exec .getMax = (.error .indexError, t)) ∧
    (t.root ≠ .nil → ∃ m, t.exec .getMax = (.ok (.num m, false), t) ∧ Holds t.root m ∧
      ∀ x, Holds t.root x → x ≤ m) := by
  obtain ⟨h1, h2⟩ := maxNode_spec t.root hs
  refine ⟨fun e => ?_, fun e => ?_⟩
  · simp only [Bst.exec, Bst.getMax, h1.2 e, Except.map]
  · cases hm : t.root.maxNode with
    | none => exact absurd (h1.1 hm) e
    | some m =>
      refine ⟨m.1, by simp only [Bst.exec, Bst.getMax, hm, Except.map], ?_⟩
      simp only [holds_iff]
      exact h2 m hm

/-- a search tree of four numbers -/
def bstSample : Bst (Fin 20) Unit :=
  ⟨.node (.node .nil (2, ()) .nil) (5, ()) (.node (.node .nil (7, ()) .nil) (9, ()) .nil), 4⟩

example : SearchTree bstSample.root := by unfold SearchTree; decide +kernel
example : (bstSample.exec (.contains (.num 7))).1 = .ok (.bool true, false) := by decide +kernel
example : (bstSample.exec (.contains (.num 8))).1 = .ok (.bool false, false) := by decide +kernel
example : (bstSample.exec .getMin).1 = .ok (.num 2, false) := by decide +kernel
example : (bstSample.exec .getMax).1 = .ok (.num 9, false) := by decide +kernel

/-! ## C41 -/

private theorem remove_root_eq (t : Bst N X) (v : N) (hne : t.root ≠ .nil) :
    t.remove (.num v) = (⟨(t.root.remove v).1, if (t.root.remove v).2 then t.length - 1 else t.length⟩,
      !(t.root.remove v).2) := by
  obtain ⟨t, n⟩ := t
  cases t with
  | nil => exact absurd rfl hne
  | node l w r =>
    cases l with
    | node ll lv lr => cases r <;> rfl
    | nil =>
      cases r with
      | node rl rv rr => rfl
      | nil =>
        simp only [Bst.remove, BTree.remove, search_node]
        by_cases h : v = w.1
        · simp [h, BTree.dataAt, BTree.walk, BTree.replace, BTree.removeRoot]
        · simp [h, BTree.dataAt, BTree.walk, Ne.symm h]

private theorem remove_cases (t : Bst N X) (v : N) :
    (t.remove (.num v) = (t, true) ∧ (SearchTree t.root → ¬ Holds t.root v)) ∨
    (∃ t', t.remove (.num v) = (⟨t', t.length - 1⟩, false) ∧ t.root.keys.Perm (v :: t'.keys) ∧
      (SearchTree t.root → (SearchTree t' ↔ RemovalSafe (t.root.sub (t.root.search v))))) := by
  by_cases hne : t.root = .nil
  · left
    obtain ⟨t, n⟩ := t
    cases hne
    exact ⟨rfl, fun _ => by simp [holds_iff]⟩
  · rw [remove_root_eq t v hne]
    by_cases h : t.root.dataAt (t.root.search v) = some v
    · right
      obtain ⟨a, b⟩ := remove_found v t.root h
      exact ⟨_, by rw [a]; rfl, b, fun hs => remove_sorted v t.root hs h⟩
    · left
      rw [remove_missing v t.root h]
      exact ⟨rfl, fun hs => by rw [holds_iff, ← dataAt_search v t.root hs]; exact h⟩

/-- C41, in part: removing a number from a search tree takes out exactly this number (with a warning
and no change if it is not held); the tree is a search tree afterwards if and only if the subtree
of the removed node has a safe shape.

Missing: the property wants a search tree in every case; `C41_order_lost` shows that the code does
not give one. -/
theorem C41_remove_partial (t : Bst N Unit) (hs : SearchTree t.root) (v : N) :
    (¬ Holds t.root v → t.exec (.remove (.num v)) = (.ok (.unit, true), t)) ∧
    (∀ p l r, t.root.sub p = .node l (v, ()) r →
      (t.exec (.remove (.num v))).1 = .ok (.unit, false) ∧
      (t.exec (.remove (.num v))).2.length = t.length - 1 ∧
      (t.root.keys).Perm (v :: (t.exec (.remove (.num v))).2.root.keys) ∧
      (SearchTree (t.exec (.remove (.num v))).2.root ↔ RemovalSafe (.node l (v, ()) r))) := by
  simp only [Bst.exec]
  rcases remove_cases t v with ⟨e, h⟩ | ⟨t', e, p, h⟩
  · rw [e]
    refine ⟨fun _ => rfl, fun p l r hp => ?_⟩
    exact absurd ⟨p, (), by simp [BTree.at, hp, BTree.root?]⟩ (h hs)
  · rw [e]
    refine ⟨fun hv => ?_, fun q l r hq => ⟨rfl, rfl, p, ?_⟩⟩
    · rw [holds_iff] at hv
      exact absurd (p.mem_iff.2 (by simp)) hv
    · rw [h hs, search_unique v t.root hs q l () r hq, hq]

/-- `remove` of something that is not a number warns and changes nothing -/
theorem C41_remove_other (t : Bst N Unit) (v : NumArg N) (hv : ∀ n, v ≠ .num n) :
    t.exec (.remove v) = (.ok (.unit, true), t) := by
  cases v with
  | num n => exact absurd rfl (hv n)
  | none => rfl
  | other => rfl

example : ∃ l r, bstSample.root.sub [] = .node l (5, ()) r ∧ RemovalSafe (.node l (5, ()) r) :=
  ⟨_, _, rfl, by simp [RemovalSafe, BTree.belowMin, BTree.rightSpine]⟩
example : (bstSample.exec (.remove (.num 5))).2.root.keys = [2, 7, 9] := by decide +kernel

/-- C41 fails: after inserting 1, 2, 5, 3 and removing 1 the tree is not a search tree, and `in` does
not find a number that the traversal lists. -/
theorem C41_order_lost : ¬ ∀ ops : List (BstOp (Fin 20)), (.invert ∉ ops) →
    SearchTree (Bst.execs ops Bst.empty).2.root := by
  intro h
  have := h [.insert (.num 1), .insert (.num 2), .insert (.num 5), .insert (.num 3), .remove (.num 1)]
    (by decide)
  unfold SearchTree at this
  revert this
  decide +kernel

example : (Bst.execs ([.insert (.num 1), .insert (.num 2), .insert (.num 5), .insert (.num 3),
    .remove (.num 1), .inorder, .contains (.num 3)] : List (BstOp (Fin 20))) Bst.empty).1.drop 5 =
    [.ok (.list [2, 5, 3], false), .ok (.bool false, false)] := by decide +kernel

/-- C41: after any history, also one that lost the order, `len` is the number of nodes. -/
theorem C41_length (ops : List (BstOp N)) :
    (Bst.execs ops Bst.empty).2.length = (Bst.execs ops Bst.empty).2.root.size := by
  have step : ∀ (t : Bst N Unit) (op : BstOp N), t.length = t.root.size →
      (t.exec op).2.length = (t.exec op).2.root.size := by
    intro t op h
    cases op with
    | insert v =>
      cases v with
      | num v => exact insertNum_length t v () h
      | none => exact h
      | other => exact h
    | remove v =>
      cases v with
      | num v =>
        simp only [Bst.exec]
        rcases remove_cases t v with ⟨e, _⟩ | ⟨t', e, p, _⟩
        · rw [e]; exact h
        · rw [e]
          have := p.length_eq
          rw [BTree.keys_length_size, List.length_cons, BTree.keys_length_size] at this
          simp only [h, this]; omega
      | none => exact h
      | other => exact h
    | clear => rfl
    | invert =>
      have : ∀ s : BTree (N × Unit), s.invert.size = s.size := by
        intro s
        induction s with
        | nil => rfl
        | node l w r ihl ihr => simp only [BTree.invert, BTree.size, ihl, ihr]; omega
      simp only [Bst.exec, this, h]
    | contains v => exact h
    | getMin => exact h
    | getMax => exact h
    | len => exact h
    | isEmpty => exact h
    | inorder => exact h
  have run : ∀ (ops : List (BstOp N)) (t : Bst N Unit), t.length = t.root.size →
      (Bst.execs ops t).2.length = (Bst.execs ops t).2.root.size := by
    intro ops
    induction ops with
    | nil => exact fun t h => h
    | cons op ops ih => exact fun t h => ih _ (step t op h)
  exact run ops _ rfl

private theorem safe_spec : ∀ (ops : List (BstOp N)) (t : Bst N Unit), SearchTree t.root →
    SafeRun ops t → SearchTree (Bst.execs ops t).2.root ∧
      ∀ x, (x ∈ (Bst.execs ops t).2.root.keys ↔ inSet x (decide (x ∈ t.root.keys)) ops = true)
  | [], t, h, _ => ⟨h, fun x => by simp [Bst.execs, inSet]⟩
  | op :: ops, t, h, hr => by
    have same : (t.exec op).2 = t → SafeRun ops t → (∀ x b, inSet x b (op :: ops) = inSet x b ops) →
        SearchTree (Bst.execs (op :: ops) t).2.root ∧
        ∀ x, (x ∈ (Bst.execs (op :: ops) t).2.root.keys ↔
          inSet x (decide (x ∈ t.root.keys)) (op :: ops) = true) := by
      intro e s k
      obtain ⟨a, b⟩ := safe_spec ops t h s
      simp only [Bst.execs, e, k]
      exact ⟨a, b⟩
    cases op with
    | insert v =>
      cases v with
      | none => exact same rfl hr (fun _ _ => rfl)
      | other => exact same rfl hr (fun _ _ => rfl)
      | num v =>
        obtain ⟨a1, a2, _, _, _⟩ := insertNum_spec t v () h
        obtain ⟨b1, b2⟩ := safe_spec ops (t.insertNum v ()).1 a1 hr
        refine ⟨b1, fun x => (b2 x).trans ?_⟩
        rw [inSet]
        have : decide (x ∈ (t.insertNum v ()).1.root.keys) =
            (decide (x ∈ t.root.keys) || decide (x = v)) := by
          rw [← Bool.decide_or]; exact decide_eq_decide.2 ((a2 x).trans or_comm)
        rw [this]
    | remove v =>
      cases v with
      | none => exact same rfl hr (fun _ _ => rfl)
      | other => exact same rfl hr (fun _ _ => rfl)
      | num v =>
        obtain ⟨hsafe, hr⟩ := hr
        obtain ⟨r1, r2⟩ := C41_remove_partial t h v
        have key : SearchTree (t.exec (.remove (.num v))).2.root ∧
            ∀ x, x ∈ (t.exec (.remove (.num v))).2.root.keys ↔ x ∈ t.root.keys ∧ x ≠ v := by
          by_cases hv : Holds t.root v
          · obtain ⟨p, y, hp⟩ := hv
            obtain ⟨l, r, hsub⟩ : ∃ l r, t.root.sub p = .node l (v, ()) r := by
              cases e : t.root.sub p with
              | nil => simp [BTree.at, e, BTree.root?] at hp
              | node l w r =>
                simp only [BTree.at, e, BTree.root?, Option.some.injEq] at hp
                exact ⟨l, r, by rw [hp]⟩
            obtain ⟨_, _, q, s⟩ := r2 p l r hsub
            refine ⟨s.2 (hsafe p l r hsub), fun x => ?_⟩
            have hn : t.root.keys.Nodup := (show t.root.keys.Pairwise (· < ·) from h).imp
              (fun {a b} k => ne_of_lt k)
            have hn' := List.nodup_cons.1 (q.nodup_iff.1 hn)
            rw [q.mem_iff, List.mem_cons]
            constructor
            · intro hx
              exact ⟨Or.inr hx, fun e => hn'.1 (e ▸ hx)⟩
            · rintro ⟨hx | hx, hne⟩
              · exact absurd hx hne
              · exact hx
          · rw [r1 hv]
            refine ⟨h, fun x => ⟨fun hx => ⟨hx, ?_⟩, fun hx => hx.1⟩⟩
            rintro rfl
            exact hv ((holds_iff _ _).2 hx)
        obtain ⟨b1, b2⟩ := safe_spec ops _ key.1 hr
        refine ⟨b1, fun x => (b2 x).trans ?_⟩
        rw [inSet]
        have : decide (x ∈ (t.exec (.remove (.num v))).2.root.keys) =
            (decide (x ∈ t.root.keys) && decide (x ≠ v)) := by
          rw [← Bool.decide_and]; exact decide_eq_decide.2 (key.2 x)
        rw [this]
    | clear =>
      obtain ⟨b1, b2⟩ := safe_spec ops (Bst.empty : Bst N Unit)
        (by simp [Bst.empty, SearchTree, BTree.inorder]) hr
      refine ⟨b1, fun x => (b2 x).trans ?_⟩
      simp [inSet, Bst.empty]
    | invert => exact absurd hr (by simp [SafeRun])
    | contains v => exact same rfl hr (fun _ _ => by cases v <;> rfl)
    | getMin => exact same rfl hr (fun _ _ => rfl)
    | getMax => exact same rfl hr (fun _ _ => rfl)
    | len => exact same rfl hr (fun _ _ => rfl)
    | isEmpty => exact same rfl hr (fun _ _ => rfl)
    | inorder => exact same rfl hr (fun _ _ => rfl)

/-- C41, in part: after any history in which every removed node has a safe shape, the tree is a
search tree holding the numbers inserted and not removed since.

Missing: histories with a removal of an unsafe shape, for which it fails (`C41_order_lost`). -/
theorem C41_history_partial (ops : List (BstOp N)) (hr : SafeRun ops Bst.empty) :
    SearchTree (Bst.execs ops Bst.empty).2.root ∧
    ∀ x, (Holds (Bst.execs ops Bst.empty).2.root x ↔ inSet x false ops = true) := by
  obtain ⟨a, b⟩ := safe_spec ops Bst.empty (by simp [Bst.empty, SearchTree, BTree.inorder]) hr
  exact ⟨a, fun x => by rw [holds_iff, b x]; simp [Bst.empty]⟩

example : SafeRun [.insert (.num 5), .insert (.num 2), .remove (.num (5 : Fin 20))] Bst.empty := by
  refine ⟨fun p l r h => ?_, trivial⟩
  change (BTree.node (.node .nil (2, ()) .nil) (5, ()) .nil : BTree (Fin 20 × Unit)).sub p = _ at h
  rcases p with _ | ⟨_ | _, _ | ⟨_ | _, _ | ⟨_, _⟩⟩⟩ <;> simp [BTree.sub] at h
  obtain ⟨rfl, rfl⟩ := h
  simp [RemovalSafe, BTree.belowMax, BTree.leftSpine]

/-! ## C42 -/

/-- C42: each rotation keeps the nodes of the subtree in their inorder sequence, so it keeps a search
tree a search tree; it raises `AttributeError` exactly when a child it needs is missing. -/
theorem C42_rotations (t : BTree (N × X)) :
    (∀ s, t.rotateLeft = .ok s → s.inorder = t.inorder) ∧
    (∀ s, t.rotateRight = .ok s → s.inorder = t.inorder) ∧
    (∀ s, t.rotateLeftRight = .ok s → s.inorder = t.inorder) ∧
    (∀ s, t.rotateRightLeft = .ok s → s.inorder = t.inorder) := by
  refine ⟨?_, ?_, ?_, ?_⟩ <;> intro s h
  · unfold BTree.rotateLeft at h
    split at h
    · cases h; simp [BTree.inorder]
    · cases h
  · unfold BTree.rotateRight at h
    split at h
    · cases h; simp [BTree.inorder]
    · cases h
  · unfold BTree.rotateLeftRight at h
    split at h
    · cases h; simp [BTree.inorder]
    · cases h
  · unfold BTree.rotateRightLeft at h
    split at h
    · cases h; simp [BTree.inorder]
    · cases h

/-- C42: which rotations succeed, and which node comes up: the right child, the left child, the right
child of the left child, the left child of the right child. -/
theorem C42_new_root (t : BTree (N × X)) (ht : t ≠ .nil) :
    (t.at [true] = none → t.rotateLeft = .error .attributeError) ∧
    (t.at [false] = none → t.rotateRight = .error .attributeError) ∧
    (t.at [false, true] = none → t.rotateLeftRight = .error .attributeError) ∧
    (t.at [true, false] = none → t.rotateRightLeft = .error .attributeError) ∧
    (∀ x, t.at [true] = some x → ∃ s, t.rotateLeft = .ok s ∧ s.at [] = some x ∧
      s.at [false] = t.at []) ∧
    (∀ x, t.at [false] = some x → ∃ s, t.rotateRight = .ok s ∧ s.at [] = some x ∧
      s.at [true] = t.at []) ∧
    (∀ x, t.at [false, true] = some x → ∃ s, t.rotateLeftRight = .ok s ∧ s.at [] = some x ∧
      s.at [true] = t.at [] ∧ s.at [false] = t.at [false]) ∧
    (∀ x, t.at [true, false] = some x → ∃ s, t.rotateRightLeft = .ok s ∧ s.at [] = some x ∧
      s.at [false] = t.at [] ∧ s.at [true] = t.at [true]) := by
  cases t with
  | nil => exact absurd rfl ht
  | node l w r =>
    refine ⟨?_, ?_, ?_, ?_, ?_, ?_, ?_, ?_⟩
    · cases r <;> simp [BTree.at, BTree.sub, BTree.root?, BTree.rotateLeft]
    · cases l <;> simp [BTree.at, BTree.sub, BTree.root?, BTree.rotateRight]
    · rcases l with _ | ⟨a, b, _ | _⟩ <;> simp [BTree.at, BTree.sub, BTree.root?, BTree.rotateLeftRight]
    · rcases r with _ | ⟨_ | _, b, c⟩ <;> simp [BTree.at, BTree.sub, BTree.root?, BTree.rotateRightLeft]
    · cases r <;> simp [BTree.at, BTree.sub, BTree.root?, BTree.rotateLeft]
    · cases l <;> simp [BTree.at, BTree.sub, BTree.root?, BTree.rotateRight]
    · rcases l with _ | ⟨a, b, _ | _⟩ <;> simp [BTree.at, BTree.sub, BTree.root?, BTree.rotateLeftRight]
    · rcases r with _ | ⟨_ | _, b, c⟩ <;> simp [BTree.at, BTree.sub, BTree.root?, BTree.rotateRightLeft]

example : bstSample.root.rotateLeft.map BTree.keys = .ok [2, 5, 7, 9] := by decide +kernel
example : bstSample.root.rotateRightLeft.map (·.at []) = .ok (some (7, ())) := by decide +kernel

end Extra
