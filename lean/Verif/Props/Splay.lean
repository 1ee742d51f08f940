import Verif.Trees.SplayProofs
import Mathlib.Order.Fin.Basic
import Batteries.Lean.Except

/-!
# Properties C47-C49: SplayTree

`splayExec`/`splayExecs` run API calls on the model (Verif/Trees/Splay.lean).  `SearchTree`, `Holds` and
`RemovalSafe` are the specification (Verif/Trees/BstSpec.lean).
-/

set_option linter.unusedSectionVars false

namespace Extra
variable {N : Type} [LinearOrder N]

private theorem searchTree_congr {s t : BTree (N × Unit)} (h : s.inorder = t.inorder) :
    SearchTree s ↔ SearchTree t := by unfold SearchTree; rw [h]

private theorem keys_congr {s t : BTree (N × Unit)} (h : s.inorder = t.inorder) : s.keys = t.keys := by
  unfold BTree.keys; rw [h]

/-! ## C47 -/

/-- C47: inserting a number into a search tree succeeds; afterwards it is a search tree holding the number
and what it held before, the number is at the root, and `len` has grown by one exactly if the number
is new (otherwise the call warns). -/
theorem C47_insert (t : Bst N Unit) (hs : SearchTree t.root) (v : N) :
    ∃ w t', splayExec t (.insert (.num v)) = .ok (.ok (.unit, w), t') ∧ SearchTree t'.root ∧
      t'.root.at [] = some (v, ()) ∧ (∀ x, Holds t'.root x ↔ x = v ∨ Holds t.root x) ∧
      (w = true ↔ Holds t.root v) ∧ t'.length = (if w then t.length else t.length + 1) := by
  obtain ⟨t, n⟩ := t
  simp only [holds_iff]
  cases t with
  | nil =>
    refine ⟨false, ⟨.node .nil (v, ()) .nil, n + 1⟩, rfl, ?_, rfl, ?_, ?_, rfl⟩ <;>
      simp [SearchTree, BTree.inorder]
  | node l w r =>
    obtain ⟨a, y, b, hw⟩ := insertPath_walk v () (.node l w r)
    have hso := insertNode_sorted (v, ()) (.node l w r) hs
    obtain ⟨a', b', e, hi⟩ := splay_spec _ _ a (v, y) b hw (pathOk_of_sorted _ _ hso)
    have hf := insertNode_flag (v, ()) (.node l w r) hs
    refine ⟨!((BTree.node l w r).insertNode (v, ())).2, ⟨.node a' (v, y) b',
      if ((BTree.node l w r).insertNode (v, ())).2 then n + 1 else n⟩, ?_, ?_, rfl, fun x => ?_, ?_, ?_⟩
    · simp only [splayExec, splayInsert, validNum, e, bind, Except.bind]; rfl
    · rw [searchTree_congr hi]; exact hso
    · rw [keys_congr hi]; exact insertNode_mem (v, ()) _ x
    · simp only [Bool.not_eq_true', ← Bool.not_eq_true, hf, not_not]
    · cases ((BTree.node l w r).insertNode (v, ())).2 <;> rfl

/-- C47: `v in tree` on a search tree that is not empty answers whether the number is held, keeps the
inorder traversal and the length, and brings to the root the number, or else a number with nothing held
between it and `v` (the last node of the search). -/
theorem C47_contains (t : Bst N Unit) (hs : SearchTree t.root) (hne : t.root ≠ .nil) (v : N) :
    ∃ b t' x, splayExec t (.contains (.num v)) = .ok (.ok (.bool b, false), t') ∧
      (b = true ↔ Holds t.root v) ∧ t'.root.inorder = t.root.inorder ∧ t'.length = t.length ∧
      t'.root.at [] = some (x, ()) ∧ (Holds t.root v → x = v) ∧
      (∀ y, Holds t.root y → ¬ (x < y ∧ y < v) ∧ ¬ (v < y ∧ y < x)) := by
  obtain ⟨t, n⟩ := t
  obtain ⟨a, x, b, hw⟩ := search_walk v t hne
  obtain ⟨a', b', e, hi⟩ := splay_spec t _ a x b hw (pathOk_of_sorted _ _ hs)
  have hd := dataAt_search v t hs
  have hx : t.dataAt (t.search v) = some x.1 := by simp [BTree.dataAt, hw]
  refine ⟨decide (t.dataAt (t.search v) = some v), ⟨.node a' x b', n⟩, x.1, ?_, ?_, hi, rfl, rfl, ?_, ?_⟩
  · cases t with
    | nil => exact absurd rfl hne
    | node l w r => simp only [splayExec, splayContains, validNum, e, bind, Except.bind]; rfl
  · rw [decide_eq_true_iff, hd, holds_iff]
  · rw [holds_iff, ← hd, hx]
    exact fun k => Option.some.inj k
  · simp only [holds_iff]
    clear hi e hd hne a' b'
    induction t with
    | nil => simp
    | node l w r ihl ihr =>
      obtain ⟨s1, s2, s3, s4⟩ := sorted_node.1 (show (BTree.node l w r).keys.Pairwise (· < ·) from hs)
      intro y hy
      rw [BTree.keys_node, List.mem_append, List.mem_cons] at hy
      rw [search_node] at hx hw
      have hmem : x.1 ∈ (BTree.node l w r).keys := by
        have : Holds (BTree.node l w r) x.1 := by
          rw [← search_node] at hw
          exact ⟨_, x.2, by rw [BTree.at, ← walk_eq_sub, hw]; rfl⟩
        exact (holds_iff _ _).1 this
      split_ifs at hx hw with e1 e2 e3 e3
      · have : x.1 = w.1 := by simpa [BTree.dataAt, BTree.walk] using hx.symm
        rw [this, ← e1]
        exact ⟨fun k => lt_asymm k.1 k.2, fun k => lt_asymm k.1 k.2⟩
      · have hxw : x.1 = w.1 := by simpa [BTree.dataAt, BTree.walk] using hx.symm
        subst e3
        rw [hxw]
        rcases hy with hy | rfl | hy
        · simp at hy
        · exact ⟨fun k => lt_irrefl _ k.1, fun k => lt_irrefl _ k.2⟩
        · exact ⟨fun k => lt_asymm e2 (k.1.trans k.2), fun k => lt_asymm k.2 (s4 y hy)⟩
      · have hxl : x.1 ∈ l.keys := by
          have : Holds l x.1 := ⟨_, x.2, by
            rw [BTree.at, ← walk_eq_sub]
            have : l.walk (l.search v) = .node a x b := by simpa [BTree.walk] using hw
            rw [this]; rfl⟩
          exact (holds_iff _ _).1 this
        rcases hy with hy | rfl | hy
        · exact ihl s1 (by simpa [BTree.walk] using hw) (by simpa [BTree.dataAt, BTree.walk] using hx) y hy
        · exact ⟨fun k => lt_asymm k.2 e2, fun k => lt_asymm k.2 (s3 _ hxl)⟩
        · exact ⟨fun k => lt_asymm (k.2.trans e2) (s4 y hy),
            fun k => lt_asymm (k.2.trans (s3 _ hxl)) (s4 y hy)⟩
      · have hxw : x.1 = w.1 := by simpa [BTree.dataAt, BTree.walk] using hx.symm
        subst e3
        have hwv : w.1 < v := lt_of_le_of_ne (not_lt.1 e2) (Ne.symm e1)
        rw [hxw]
        rcases hy with hy | rfl | hy
        · exact ⟨fun k => lt_asymm k.1 (s3 y hy), fun k => lt_asymm hwv (k.1.trans k.2)⟩
        · exact ⟨fun k => lt_irrefl _ k.1, fun k => lt_irrefl _ k.2⟩
        · simp at hy
      · have hwv : w.1 < v := lt_of_le_of_ne (not_lt.1 e2) (Ne.symm e1)
        have hxr : x.1 ∈ r.keys := by
          have : Holds r x.1 := ⟨_, x.2, by
            rw [BTree.at, ← walk_eq_sub]
            have : r.walk (r.search v) = .node a x b := by simpa [BTree.walk] using hw
            rw [this]; rfl⟩
          exact (holds_iff _ _).1 this
        rcases hy with hy | rfl | hy
        · exact ⟨fun k => lt_asymm ((s4 _ hxr).trans k.1) (s3 y hy),
            fun k => lt_asymm (hwv.trans k.1) (s3 y hy)⟩
        · exact ⟨fun k => lt_asymm k.1 (s4 _ hxr), fun k => lt_asymm k.1 hwv⟩
        · exact ihr s2 (by simpa [BTree.walk] using hw) (by simpa [BTree.dataAt, BTree.walk] using hx) y hy

/-- a search tree of five numbers -/
def splaySample : Bst (Fin 20) Unit :=
  ⟨.node (.node .nil (1, ()) (.node .nil (2, ()) .nil)) (5, ())
    (.node (.node .nil (7, ()) .nil) (9, ()) .nil), 5⟩

example : SearchTree splaySample.root := by unfold SearchTree; decide +kernel
example : (splayExec splaySample (.contains (.num 7))).map (fun x => (x.2.root.at [], x.2.root.keys)) =
    .ok (some (7, ()), [1, 2, 5, 7, 9]) := by decide +kernel
example : (splayExec splaySample (.contains (.num 8))).map (fun x => (x.1, x.2.root.at [])) =
    .ok (.ok (.bool false, false), some (7, ())) := by decide +kernel
example : (splayExec splaySample (.insert (.num 3))).map (fun x => (x.2.root.at [], x.2.root.keys)) =
    .ok (some (3, ()), [1, 2, 3, 5, 7, 9]) := by decide +kernel

/-- C47: after any history of inserts and membership tests (with any arguments) on a new tree, the tree
is a search tree that holds exactly the numbers inserted, and `len` counts them. -/
theorem C47_history (ops : List (SplayOp N)) (hops : ∀ o ∈ ops, ∃ a, o = .insert a ∨ o = .contains a) :
    ∃ rs t, splayExecs ops Bst.empty = .ok (rs, t) ∧ SearchTree t.root ∧
      (∀ x, Holds t.root x ↔ SplayOp.insert (.num x) ∈ ops) ∧ t.length = (t.root.keys.length : Int) := by
  suffices H : ∀ (t : Bst N Unit), SearchTree t.root → t.length = (t.root.keys.length : Int) →
      ∃ rs t', splayExecs ops t = .ok (rs, t') ∧ SearchTree t'.root ∧
      (∀ x, Holds t'.root x ↔ Holds t.root x ∨ SplayOp.insert (.num x) ∈ ops) ∧
      t'.length = (t'.root.keys.length : Int) by
    obtain ⟨rs, t', h1, h2, h3, h4⟩ := H Bst.empty (by simp [SearchTree, Bst.empty, BTree.inorder]) rfl
    refine ⟨rs, t', h1, h2, fun x => (h3 x).trans ?_, h4⟩
    simp [holds_iff, Bst.empty]
  induction ops with
  | nil => exact fun t hs hl => ⟨[], t, rfl, hs, by simp, hl⟩
  | cons o ops ih =>
    intro t hs hl
    have step : ∃ r t1, splayExec t o = .ok (r, t1) ∧ SearchTree t1.root ∧
        (∀ x, Holds t1.root x ↔ Holds t.root x ∨ SplayOp.insert (.num x) = o) ∧
        t1.length = (t1.root.keys.length : Int) := by
      obtain ⟨a, rfl | rfl⟩ := hops o (by simp)
      · cases a with
        | num v =>
          obtain ⟨w, t', e, h1, _, h3, h4, h5⟩ := C47_insert t hs v
          refine ⟨_, t', e, h1, fun x => ?_, ?_⟩
          · rw [h3]; simp only [SplayOp.insert.injEq, NumArg.num.injEq]; tauto
          · have n1 : t'.root.keys.Nodup :=
              List.Pairwise.imp (fun h => ne_of_lt h) (show t'.root.keys.Pairwise (· < ·) from h1)
            have n0 : t.root.keys.Nodup :=
              List.Pairwise.imp (fun h => ne_of_lt h) (show t.root.keys.Pairwise (· < ·) from hs)
            simp only [holds_iff] at h3 h4
            rw [h5, hl]
            by_cases hv : v ∈ t.root.keys
            · rw [if_pos (h4.2 hv)]
              have : t'.root.keys.Perm t.root.keys := (List.perm_ext_iff_of_nodup n1 n0).2 fun x => by
                rw [h3]; exact ⟨fun k => k.elim (fun k => k ▸ hv) id, Or.inr⟩
              rw [this.length_eq]
            · rw [if_neg (fun k => hv (h4.1 k))]
              have : t'.root.keys.Perm (v :: t.root.keys) :=
                (List.perm_ext_iff_of_nodup n1 (List.nodup_cons.2 ⟨hv, n0⟩)).2 fun x => by
                  rw [h3, List.mem_cons]
              rw [this.length_eq]; simp
        | none => exact ⟨_, t, rfl, hs, by simp, hl⟩
        | other => exact ⟨_, t, rfl, hs, by simp, hl⟩
      · cases a with
        | num v =>
          by_cases hne : t.root = .nil
          · refine ⟨.error .assertionError, t, ?_, hs, by simp, hl⟩
            simp only [splayExec, splayContains, validNum, hne]
          · obtain ⟨b, t', _, e, _, hi, hl', _⟩ := C47_contains t hs hne v
            refine ⟨_, t', e, (searchTree_congr hi).2 hs, fun x => ?_, ?_⟩
            · simp [holds_iff, keys_congr hi]
            · rw [hl', hl, keys_congr hi]
        | none => exact ⟨_, t, rfl, hs, by simp, hl⟩
        | other => exact ⟨_, t, rfl, hs, by simp, hl⟩
    obtain ⟨r, t1, e, k1, k2, k3⟩ := step
    obtain ⟨rs, t', e', j1, j2, j3⟩ := ih (fun o ho => hops o (by simp [ho])) t1 k1 k3
    refine ⟨r :: rs, t', ?_, j1, fun x => ?_, j3⟩
    · simp only [splayExecs, e, e', bind, Except.bind]; rfl
    · rw [j2, k2, List.mem_cons]; tauto

example : (splayExecs ([5, 3, 8, 3] |>.map (fun v => SplayOp.insert (.num (v : Fin 20)))) Bst.empty).map
    (fun x => (x.2.root.keys, x.2.length)) = .ok ([3, 5, 8], 3) := by decide +kernel

/-! ## C48 -/

/-- C48, in part: on a search tree that is not empty `v in tree` returns a truth value for every number.

Missing: the empty tree and values that are not numbers, where the code raises (`C48_raises`). -/
theorem C48_membership_partial (t : Bst N Unit) (hs : SearchTree t.root) (hne : t.root ≠ .nil) (v : N) :
    ∃ b t', splayExec t (.contains (.num v)) = .ok (.ok (.bool b, false), t') := by
  obtain ⟨b, t', _, h, _⟩ := C47_contains t hs hne v
  exact ⟨b, t', h⟩

/-- C48 fails: `v in tree` raises `AssertionError` on the empty tree for every number, and `ValueError` or
`TypeError` on every tree for what is not a number. -/
theorem C48_raises (t : Bst N Unit) (v : N) :
    (t.root = .nil → splayExec t (.contains (.num v)) = .ok (.error .assertionError, t)) ∧
    splayExec t (.contains .none) = .ok (.error .valueError, t) ∧
    splayExec t (.contains .other) = .ok (.error .typeError, t) := by
  refine ⟨fun h => ?_, rfl, rfl⟩
  simp only [splayExec, splayContains, validNum, h]

example : (splayExecs [.contains (.num (3 : Fin 20))] Bst.empty).map (·.1) =
    .ok [.error .assertionError] := by decide +kernel

/-! ## C49 -/

private theorem splayRemove_eq (t : Bst N Unit) (v : N) (hne : t.root ≠ .nil)
    (hroot : ∀ w, t.root = .node .nil w .nil → w.1 ≠ v) :
    splayRemove t (.num v) = (do
      let s ← (t.root.remove v).1.splay (t.root.lastAccessed v)
      pure (.ok (.unit, !(t.root.remove v).2),
        ⟨s, if (t.root.remove v).2 then t.length - 1 else t.length⟩)) := by
  obtain ⟨t, n⟩ := t
  rcases t with _ | ⟨_ | _, w, _ | _⟩
  · exact absurd rfl hne
  · have hw := hroot w rfl
    simp only [splayRemove, if_neg (Ne.symm hw)]
    have hs : (BTree.node BTree.nil w BTree.nil).search v = [] := by
      rw [search_node]; split_ifs <;> first | rfl | exact absurd rfl ‹_›
    have hd : (BTree.node BTree.nil w BTree.nil).dataAt [] ≠ some v := by
      simpa [BTree.dataAt, BTree.walk] using hw
    rw [remove_missing v _ (by rw [hs]; exact hd), BTree.lastAccessed, hs, if_neg hd]
    rfl
  · rfl
  · rfl
  · rfl

/-- C49, in part: removing a number from a search tree never raises; it takes out exactly this number
(with a warning and the same traversal if it is not held), and `len` follows.  The tree is a search tree
afterwards if and only if the subtree of the removed node has a safe shape.

Missing: the property wants a search tree in every case; `C49_order_lost` shows that the code does not
give one. -/
theorem C49_remove_partial (t : Bst N Unit) (hs : SearchTree t.root) (v : N) :
    (¬ Holds t.root v → ∃ t', splayExec t (.remove (.num v)) = .ok (.ok (.unit, true), t') ∧
      t'.root.inorder = t.root.inorder ∧ t'.length = t.length) ∧
    (∀ p l r, t.root.sub p = .node l (v, ()) r →
      ∃ t', splayExec t (.remove (.num v)) = .ok (.ok (.unit, false), t') ∧
        t'.length = t.length - 1 ∧ t.root.keys.Perm (v :: t'.root.keys) ∧
        (SearchTree t'.root ↔ RemovalSafe (.node l (v, ()) r))) := by
  by_cases hne : t.root = .nil
  · refine ⟨fun _ => ⟨t, by simp only [splayExec, splayRemove, hne], rfl, rfl⟩, fun p l r h => ?_⟩
    rw [hne] at h
    cases p <;> simp [BTree.sub] at h
  by_cases hroot : ∀ w, t.root = .node .nil w .nil → w.1 ≠ v
  · obtain ⟨⟨a, x, b, hw⟩, hp⟩ := lastAccessed_spec v t.root hne hroot hs
    obtain ⟨a', b', e, hi⟩ := splay_spec _ _ a x b hw hp
    have hex : splayExec t (.remove (.num v)) = .ok (.ok (.unit, !(t.root.remove v).2),
        ⟨.node a' x b', if (t.root.remove v).2 then t.length - 1 else t.length⟩) := by
      rw [splayExec, splayRemove_eq t v hne hroot, e]; rfl
    rw [hex]
    by_cases hf : t.root.dataAt (t.root.search v) = some v
    · obtain ⟨f1, f2⟩ := remove_found v t.root hf
      rw [f1]
      refine ⟨fun hv => absurd ((holds_iff _ _).2 ((dataAt_search v _ hs).1 hf)) hv, fun p l r hsub => ?_⟩
      refine ⟨_, rfl, rfl, ?_, ?_⟩
      · simp only [keys_congr hi]; exact f2
      · simp only [searchTree_congr hi]
        refine (remove_sorted v t.root hs hf).trans ?_
        rw [search_unique v t.root hs p l () r hsub, hsub]
    · rw [remove_missing v t.root hf] at hi ⊢
      refine ⟨fun _ => ⟨_, rfl, hi, rfl⟩, fun p l r hsub => ?_⟩
      rw [dataAt_search v _ hs, ← holds_iff] at hf
      exact absurd ⟨p, (), by simp [BTree.at, hsub, BTree.root?]⟩ hf
  · simp only [not_forall, not_not] at hroot
    obtain ⟨w, hw, rfl⟩ := hroot
    have hex : splayExec t (.remove (.num w.1)) = .ok (.ok (.unit, false), ⟨.nil, t.length - 1⟩) := by
      simp only [splayExec, splayRemove, hw, if_true]
    rw [hex]
    refine ⟨fun hv => absurd ((holds_iff _ _).2 (by rw [hw]; simp)) hv, fun p l r hsub => ?_⟩
    refine ⟨_, rfl, rfl, by rw [hw]; simp, ?_⟩
    rw [hw] at hsub
    rcases p with _ | ⟨_ | _, p⟩
    · simp only [BTree.sub, BTree.node.injEq] at hsub
      obtain ⟨rfl, _, rfl⟩ := hsub
      simp [SearchTree, BTree.inorder, RemovalSafe, BTree.belowMax, BTree.leftSpine]
    · cases p <;> simp [BTree.sub] at hsub
    · cases p <;> simp [BTree.sub] at hsub

example : ∃ l r, splaySample.root.sub [] = .node l (5, ()) r ∧ RemovalSafe (.node l (5, ()) r) :=
  ⟨_, _, rfl, by simp [RemovalSafe, BTree.belowMin, BTree.rightSpine]⟩
example : (splayExec splaySample (.remove (.num 5))).map (·.2.root.keys) = .ok [1, 2, 7, 9] := by
  decide +kernel

/-- 3, 2, 4, 0, 1 inserted, 1 removed -/
def splayWitness : List (SplayOp (Fin 20)) :=
  (([3, 2, 4, 0, 1] : List (Fin 20)).map (fun v => SplayOp.insert (.num v))) ++ [.remove (.num 1)]

/-- C49 fails: five inserts and one removal leave a tree that is not a search tree. -/
theorem C49_order_lost : ¬ ∀ (ops : List (SplayOp (Fin 20))) (rs : List (BstRes (Fin 20)))
    (t : Bst (Fin 20) Unit), splayExecs ops Bst.empty = .ok (rs, t) → SearchTree t.root := by
  intro h
  have hw : (splayExecs splayWitness Bst.empty).map (fun x =>
      decide (x.2.root.keys.Pairwise (· < ·))) = .ok false := by decide +kernel
  cases e : splayExecs splayWitness Bst.empty with
  | error => rw [e] at hw; cases hw
  | ok x =>
    obtain ⟨rs, t⟩ := x
    have hs : t.root.keys.Pairwise (· < ·) := h _ rs t e
    rw [e] at hw
    simp only [Except.map, Except.ok.injEq, decide_eq_false_iff_not] at hw
    exact hw hs

example : (splayExecs splayWitness Bst.empty).map (·.2.root.keys) = .ok [0, 2, 4, 3] := by decide +kernel

end Extra
