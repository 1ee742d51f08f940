import Verif.Trees.RedBlackProofs
import Mathlib.Order.Fin.Basic
import Mathlib.Data.List.Dedup
import Batteries.Lean.Except

/-!
# Properties C54-C56 and C71: RedBlackTree

`rbExec`/`rbExecs` run API calls on the model (Verif/Trees/RedBlack.lean).  `SearchTree` and `Holds`
(Verif/Trees/BstSpec.lean), `RedBlackOk` (no red node has a red child, all paths to a missing child have
equally many black nodes, the root is black), `BadTurn` and `RedNeighbour` (Verif/Trees/RedBlackSpec.lean)
are the specification.
-/

set_option linter.unusedSectionVars false
set_option linter.unusedSimpArgs false

namespace Extra
variable {N : Type} [LinearOrder N]

private theorem rootBlack_iff (t : BTree (N × Color)) : RootBlack t ↔ t.isRed = false := by
  rcases t with _ | ⟨l, ⟨x, c⟩, r⟩
  · simp [RootBlack, BTree.at, BTree.sub, BTree.root?]
  · cases c <;> simp [RootBlack, BTree.at, BTree.sub, BTree.root?, BTree.isRed]

/-! ## C54 -/

/-- C54: inserting a number into a search tree succeeds; afterwards it is a search tree holding the number
and what it held before, the root is black, `len` has grown by one exactly if the number is new
(otherwise the call warns). -/
theorem C54_insert (t : Bst N Color) (hs : SearchTree t.root) (v : N) :
    ∃ w t', rbExec t (.insert (.num v)) = .ok (.ok (.unit, w), t') ∧ SearchTree t'.root ∧
      RootBlack t'.root ∧ (∀ x, Holds t'.root x ↔ x = v ∨ Holds t.root x) ∧
      (w = true ↔ Holds t.root v) ∧ t'.length = (if w then t.length else t.length + 1) := by
  obtain ⟨t', e, hk, hr, hl, -⟩ := rbInsert_ok t v hs
  have hf := insertNode_flag (v, Color.red) t.root hs
  refine ⟨_, t', by simp only [rbExec, validNum, e, bind, Except.bind]; rfl, ?_, (rootBlack_iff _).2 hr,
    fun x => ?_, ?_, ?_⟩
  · rw [searchTree_iff, hk]; exact insertNode_sorted (v, Color.red) _ hs
  · rw [holds_iff, holds_iff, hk]; exact insertNode_mem (v, Color.red) _ x
  · rw [holds_iff]
    simp only [Bool.not_eq_true', ← Bool.not_eq_true, hf, not_not]
  · rw [hl]; cases (t.root.insertNode (v, Color.red)).2 <;> rfl

/-- the calls inserting some numbers -/
def rbInserts (vs : List N) : List (RbOp N) := vs.map (fun v => .insert (.num v))

private theorem inserts_from (vs : List N) : ∀ (t : Bst N Color), SearchTree t.root →
    t.length = (t.root.keys.length : Int) → ∃ rs t', rbExecs (rbInserts vs) t = .ok (rs, t') ∧
      SearchTree t'.root ∧ (∀ x, Holds t'.root x ↔ x ∈ vs ∨ Holds t.root x) ∧
      (RootBlack t.root → RootBlack t'.root) ∧ t'.length = (t'.root.keys.length : Int) ∧
      rs.length = vs.length ∧ ∀ r ∈ rs, r = .ok (.unit, false) ∨ r = .ok (.unit, true) := by
  induction vs with
  | nil => exact fun t h hl => ⟨[], t, rfl, h, by simp, id, hl, rfl, by simp⟩
  | cons v vs ih =>
    intro t hs hlen
    obtain ⟨t', e, hk, hr, hl, -⟩ := rbInsert_ok t v hs
    have hs' : SearchTree t'.root := by
      rw [searchTree_iff, hk]; exact insertNode_sorted (v, Color.red) _ hs
    have hlen' : t'.length = (t'.root.keys.length : Int) := by
      rw [hk, insertNode_length, hl, hlen]
      cases (t.root.insertNode (v, Color.red)).2 <;> simp
    obtain ⟨rs, t'', e2, k1, k2, k3, k4, k5, k6⟩ := ih t' hs' hlen'
    refine ⟨.ok (.unit, !(t.root.insertNode (v, Color.red)).2) :: rs, t'', ?_, k1, fun x => ?_,
      fun _ => k3 ((rootBlack_iff _).2 hr), k4, by simp [k5], ?_⟩
    · simp only [rbInserts, List.map_cons, rbExecs, rbExec, validNum, e, bind, Except.bind, pure, Except.pure]
      rw [rbInserts] at e2
      rw [e2]
    · rw [k2, holds_iff, holds_iff, hk, insertNode_mem]; simp [or_assoc, or_left_comm]
    · simp only [List.mem_cons, forall_eq_or_imp]
      refine ⟨?_, k6⟩
      cases (t.root.insertNode (v, Color.red)).2 <;> simp

/-- C54: after any sequence of inserts the inorder traversal is the sorted set of the numbers inserted,
`len` is its size, and the root is black. -/
theorem C54_inserts (vs : List N) : ∃ rs t, rbExecs (rbInserts vs) Bst.empty = .ok (rs, t) ∧
    SearchTree t.root ∧ (∀ x, Holds t.root x ↔ x ∈ vs) ∧ RootBlack t.root ∧
    t.length = (vs.dedup.length : Int) ∧
    (∀ r ∈ rs, r = .ok (.unit, false) ∨ r = .ok (.unit, true)) ∧
    rbExec t .inorder = .ok (.ok (.list t.root.keys, false), t) ∧
    rbExec t .len = .ok (.ok (.int vs.dedup.length, false), t) := by
  obtain ⟨rs, t, e, k1, k2, k3, k4, -, k6⟩ := inserts_from vs Bst.empty (by simp [Bst.empty, SearchTree, BTree.inorder])
    (by simp [Bst.empty])
  have hlen : t.root.keys.length = vs.dedup.length := by
    refine List.Perm.length_eq ?_
    refine (List.perm_ext_iff_of_nodup ?_ (List.nodup_dedup _)).2 fun x => ?_
    · exact (show t.root.keys.Pairwise (· < ·) from k1).imp ne_of_lt
    · rw [← holds_iff, k2, List.mem_dedup, holds_iff]; simp [Bst.empty]
  refine ⟨rs, t, e, k1, fun x => by rw [k2, holds_iff]; simp [Bst.empty], k3 ?_, by rw [k4, hlen], k6, rfl, ?_⟩
  · simp [RootBlack, Bst.empty, BTree.at, BTree.sub, BTree.root?]
  · simp only [rbExec, k4, hlen]

/-- a tree for the examples: 4, 2, 6, 1, 3, 5, 7 inserted -/
def rbSample : Bst (Fin 20) Color :=
  match rbExecs (rbInserts [4, 2, 6, 1, 3, 5, 7]) Bst.empty with
  | .ok (_, t) => t
  | .error _ => Bst.empty

theorem rbSample_eq : rbSample = ⟨.node (.node (.node .nil (1, .red) .nil) (2, .black) (.node .nil (3, .red) .nil))
    (4, .black) (.node (.node .nil (5, .red) .nil) (6, .black) (.node .nil (7, .red) .nil)), 7⟩ := by
  decide +kernel

example : SearchTree rbSample.root := by unfold SearchTree; decide +kernel
example : (rbExec rbSample (.insert (.num 9))).map (fun r => (r.1, r.2.root.keys)) =
    .ok (.ok (.unit, false), [1, 2, 3, 4, 5, 6, 7, 9]) := by decide +kernel

/-! ## C55 -/

/-- C55, where the code does it: inserting `v` into a search tree with the colour invariants keeps the
invariants if there is no bad turn on the way to `v`.

Missing: the ways with a bad turn, for which the invariants can be lost (`C55_invariants_lost`). -/
theorem C55_insert_partial (t : Bst N Color) (hs : SearchTree t.root) (hc : RedBlackOk t.root) (v : N)
    (hb : ¬ BadTurn v t.root) :
    ∃ w t', rbExec t (.insert (.num v)) = .ok (.ok (.unit, w), t') ∧ RedBlackOk t'.root := by
  obtain ⟨t', e, -, hr, -, hok⟩ := rbInsert_ok t v hs
  obtain ⟨hn, hrb⟩ := (redBlackOk_iff _).1 hc
  exact ⟨_, t', by simp only [rbExec, validNum, e, bind, Except.bind]; rfl,
    (redBlackOk_iff _).2 ⟨hok hrb hn hb, hr⟩⟩

private theorem sample_ok : RedBlackOk rbSample.root := by
  rw [rbSample_eq, redBlackOk_iff]
  exact ⟨⟨2, by simp [rbI, Color.bl, BTree.isRed]⟩, rfl⟩

example : RedBlackOk rbSample.root ∧ ¬ BadTurn 9 rbSample.root := by
  refine ⟨sample_ok, ?_⟩
  rw [rbSample_eq]
  simp [BadTurn, TurnsAt]

/-- no insertion of the sequence meets a bad turn -/
def NoBadTurns : List N → Bst N Color → Prop
  | [], _ => True
  | v :: vs, t => ¬ BadTurn v t.root ∧
      ∀ r t', rbExec t (.insert (.num v)) = .ok (r, t') → NoBadTurns vs t'

/-- C55 for sequences of inserts that meet no bad turn.

Missing: sequences that do (`C55_invariants_lost`). -/
theorem C55_inserts_partial (vs : List N) (hb : NoBadTurns vs Bst.empty) :
    ∃ rs t, rbExecs (rbInserts vs) Bst.empty = .ok (rs, t) ∧ RedBlackOk t.root := by
  suffices H : ∀ (vs : List N) (t : Bst N Color), SearchTree t.root → RedBlackOk t.root → NoBadTurns vs t →
      ∃ rs t', rbExecs (rbInserts vs) t = .ok (rs, t') ∧ RedBlackOk t'.root by
    refine H vs Bst.empty (by simp [Bst.empty, SearchTree, BTree.inorder]) ?_ hb
    exact (redBlackOk_iff _).2 ⟨⟨0, rfl⟩, rfl⟩
  intro vs
  induction vs with
  | nil => exact fun t _ h _ => ⟨[], t, rfl, h⟩
  | cons v vs ih =>
    intro t hs hc hb
    obtain ⟨w, t', e, hc'⟩ := C55_insert_partial t hs hc v hb.1
    obtain ⟨w2, t2, e2, hs', -⟩ := C54_insert t hs v
    rw [e] at e2
    cases e2
    obtain ⟨rs, t'', e3, hc''⟩ := ih t' hs' hc' (hb.2 _ _ e)
    refine ⟨.ok (.unit, w) :: rs, t'', ?_, hc''⟩
    simp only [rbInserts, List.map_cons, rbExecs, e, bind, Except.bind, pure, Except.pure]
    rw [rbInserts] at e3
    rw [e3]

private theorem missing_child (t : BTree (N × Color)) (p q b) (h1 : t.at q ≠ none) (h2 : t.at p = none)
    (h3 : p = q ++ [b]) : MissingAt t p := by
  subst h3
  refine ⟨h2, fun q' b' e => ?_⟩
  obtain ⟨rfl, -⟩ := List.append_inj' e rfl
  exact h1

/-- C55 fails: the invariants do not survive inserting 10, 4, 12, 2, 6, 7, 8 — `__recolor` goes on
upwards from a black node after a rotation and rotates around it. -/
theorem C55_invariants_lost : ¬ ∀ (vs : List (Fin 20)) rs t,
    rbExecs (rbInserts vs) Bst.empty = .ok (rs, t) → RedBlackOk t.root := by
  intro h
  have e : rbExecs (rbInserts [10, 4, 12, 2, 6, 7, 8]) (Bst.empty : Bst (Fin 20) Color) =
      .ok (List.replicate 7 (.ok (.unit, false)),
        match rbExecs (rbInserts [10, 4, 12, 2, 6, 7, 8]) (Bst.empty : Bst (Fin 20) Color) with
        | .ok (_, t) => t
        | .error _ => Bst.empty) := by decide +kernel
  obtain ⟨-, ⟨n, hn⟩, -⟩ := h _ _ _ e
  have h1 := hn [false, true, false] (missing_child _ _ [false, true] false (by decide +kernel) (by decide +kernel) rfl)
  have h2 := hn [true, true, true] (missing_child _ _ [true, true] true (by decide +kernel) (by decide +kernel) rfl)
  rw [← h2] at h1
  revert h1
  decide +kernel

/-! ## C56 -/

private theorem keys_append {A B : List N} {L R : List N} {v : N} {s : BTree (N × Color)}
    (hs : (A ++ (L ++ v :: R) ++ B).Pairwise (· < ·)) (hk : s.keys = L ++ R) :
    A ++ s.keys ++ B = (A ++ (L ++ v :: R) ++ B).filter (fun x => x ≠ v) := by
  have hn : (A ++ (L ++ v :: R) ++ B).Nodup := hs.imp ne_of_lt
  have h1 : v ∉ A ++ L ++ R ++ B := by
    intro hv
    have hp : (A ++ (L ++ v :: R) ++ B).Perm (v :: (A ++ L ++ R ++ B)) := by
      have : A ++ (L ++ v :: R) ++ B = (A ++ L) ++ v :: (R ++ B) := by simp
      rw [this]
      refine List.perm_middle.trans (by simp)
    exact (List.nodup_cons.1 (hp.nodup_iff.1 hn)).1 hv
  have keep : ∀ l : List N, (∀ x ∈ l, x ∈ A ++ L ++ R ++ B) → l.filter (fun x => x ≠ v) = l := by
    intro l hl
    rw [List.filter_eq_self]
    intro x hx
    simp only [ne_eq, decide_not, Bool.not_eq_true', decide_eq_false_iff_not]
    rintro rfl
    exact h1 (hl x hx)
  rw [hk]
  simp only [List.filter_append, List.filter_cons, ne_eq, not_true_eq_false, decide_false, Bool.false_eq_true,
    if_false]
  have k := fun l h => keep l h
  simp only [ne_eq] at k
  rw [k A (by simp +contextual), k L (by simp +contextual), k R (by simp +contextual), k B (by simp +contextual)]

/-- what a correct removal of `v` leaves: a search tree of the other numbers, one shorter -/
structure RemovedFrom (t : Bst N Color) (v : N) (t' : Bst N Color) : Prop where
  search : SearchTree t'.root
  keys : t'.root.keys = t.root.keys.filter (fun x => x ≠ v)
  len : t'.length = t.length - 1

/-- C56, what the code does: on a search tree with the colour invariants `remove(v)`
* warns and changes nothing if `v` is not held;
* removes exactly `v` and keeps the invariants if the node of `v` is a red leaf, or if the node is not a
  leaf and the number before or after it in its subtree is that of a red node;
* raises `ValueError` and changes nothing if the node is red, not a leaf, and neither of these numbers is
  that of a red node;
* otherwise (the node is black) removes exactly `v` or raises `AttributeError`; nothing else can
  happen, in particular the loop ends.

Missing: the property wants no exceptions and the invariants in all cases; `C56_value_error`,
`C56_attribute_error` and `C56_invariants_lost` show that the code does not give this. -/
theorem C56_remove_partial (t : Bst N Color) (hs : SearchTree t.root) (hc : RedBlackOk t.root) (v : N) :
    (¬ Holds t.root v → rbExec t (.remove (.num v)) = .ok (.ok (.unit, true), t)) ∧
    (∀ p l c r, t.root.sub p = .node l (v, c) r →
      ((c = .red ∧ l = .nil ∧ r = .nil) ∨ RedNeighbour l r →
        ∃ t', rbExec t (.remove (.num v)) = .ok (.ok (.unit, false), t') ∧ RemovedFrom t v t' ∧
          RedBlackOk t'.root) ∧
      (c = .red → ¬ (l = .nil ∧ r = .nil) → ¬ RedNeighbour l r →
        rbExec t (.remove (.num v)) = .ok (.error .valueError, t)) ∧
      (c = .black → ¬ RedNeighbour l r →
        rbExec t (.remove (.num v)) = .error .attributeError ∨
        ∃ t', rbExec t (.remove (.num v)) = .ok (.ok (.unit, false), t') ∧ RemovedFrom t v t')) := by
  obtain ⟨t, k⟩ := t
  obtain ⟨⟨n, hn⟩, hroot⟩ := (redBlackOk_iff _).1 hc
  simp only at hs hc hn hroot ⊢
  have hk : t.keys.Pairwise (· < ·) := hs
  -- the calls in terms of `rbRemoveTree`
  have hex : t ≠ .nil → (∀ w, t ≠ .node .nil w .nil) → rbExec ⟨t, k⟩ (.remove (.num v)) =
      (do let (res, s) ← rbRemoveTree v t
          pure (res, ⟨s, match res with | .ok (_, false) => k - 1 | _ => k⟩)) := by
    intro h1 h2
    simp only [rbExec]
    rcases t with _ | ⟨_ | ⟨a, b, c⟩, w, _ | ⟨a', b', c'⟩⟩
    · exact absurd rfl h1
    · exact absurd rfl (h2 w)
    · rfl
    · rfl
    · rfl
  constructor
  · intro hv
    rw [holds_iff] at hv
    by_cases h1 : t = .nil
    · subst h1; rfl
    by_cases h2 : ∃ w, t = .node .nil w .nil
    · obtain ⟨w, rfl⟩ := h2
      have : v ≠ w.1 := by rintro rfl; simp at hv
      simp only [rbExec, rbRemoveNum]
      rw [if_neg this]
    · rw [hex h1 (fun w e => h2 ⟨w, e⟩)]
      obtain ⟨a, x, b, hw⟩ := search_walk v t h1
      have hx : x.1 ≠ v := by
        rintro rfl
        exact hv ((dataAt_search _ t hk).1 (by simp [BTree.dataAt, hw]))
      have : rbRemoveTree v t = .ok (.ok (.unit, true), t) := by
        simp only [rbRemoveTree, hw]
        rw [if_pos hx]
      rw [this]; rfl
  · intro p l c r hp
    have hsearch := search_unique v t hk p l c r hp
    have hwalk : t.walk p = .node l (v, c) r := by rw [walk_eq_sub, hp]
    by_cases hleaf : ∃ w, t = .node .nil w .nil
    · obtain ⟨w, rfl⟩ := hleaf
      have hpp : p = [] := by
        rcases p with _ | ⟨_ | _, _ | ⟨_, p⟩⟩ <;> simp [BTree.sub] at hp ⊢
      subst hpp
      simp only [BTree.sub, BTree.node.injEq] at hp
      obtain ⟨rfl, rfl, rfl⟩ := hp
      have e : rbExec ⟨.node .nil (v, c) .nil, k⟩ (.remove (.num v)) =
          .ok (.ok (.unit, false), ⟨.nil, k - 1⟩) := by simp [rbExec, rbRemoveNum]
      have rem : RemovedFrom ⟨.node .nil (v, c) .nil, k⟩ v ⟨.nil, k - 1⟩ :=
        ⟨by simp [SearchTree, BTree.inorder], by simp, rfl⟩
      exact ⟨fun _ => ⟨_, e, rem, (redBlackOk_iff _).2 ⟨⟨0, rfl⟩, rfl⟩⟩, fun _ h => absurd ⟨rfl, rfl⟩ h,
        fun _ _ => .inr ⟨_, e, rem⟩⟩
    · have h1 : t ≠ .nil := by rintro rfl; cases p <;> simp [BTree.sub] at hp
      rw [hex h1 (fun w e => hleaf ⟨w, e⟩)]
      -- above the node
      obtain ⟨m, hm, hctx, hhead⟩ := descend_rb t p [] n hn trivial (by simp [hroot])
      rw [List.append_nil] at hctx hhead
      rw [hwalk] at hm
      obtain ⟨s, col, e, hi, c1, c2, c3, c4⟩ := transplant_spec l (v, c) r m hm
      have hne : t.walk p ≠ .nil := by rw [hwalk]; simp
      have hplug : ∀ s, t.replace p s = plug s (t.above p) := fun s => replace_plug t p s hne
      have hback : plug (.node l (v, c) r) (t.above p) = t := by rw [← hwalk]; exact plug_above t p hne
      have hskeys : s.keys = l.keys ++ r.keys := by simp [BTree.keys, hi]
      have hkeys : ∀ s' : BTree (N × Color), s'.keys = l.keys ++ r.keys →
          (t.replace p s').keys = t.keys.filter (fun x => x ≠ v) := by
        intro s' hs'
        obtain ⟨A, B, e1, e2⟩ := replace_keys t p hne
        rw [e2]
        rw [e1, hwalk] at hk
        rw [e1, hwalk]
        rw [BTree.keys_node] at hk ⊢
        exact keys_append hk hs'
      have hrem : ∀ u : BTree (N × Color), u.keys = t.keys.filter (fun x => x ≠ v) →
          RemovedFrom ⟨t, k⟩ v ⟨u, k - 1⟩ := by
        intro u hu
        refine ⟨?_, hu, rfl⟩
        rw [searchTree_iff]
        simp only [hu]
        exact hk.filter _
      have hred_head : c = .red → headBlack (t.above p) := fun hcr =>
        hhead (by rw [hwalk, isRed_node, hcr])
      -- the subtree put back, in case I and IV
      have hput : ∀ s' : BTree (N × Color), s'.keys = l.keys ++ r.keys → rbI s' m →
          (s'.isRed = true → c = .red) →
          RemovedFrom ⟨t, k⟩ v ⟨t.replace p s', k - 1⟩ ∧ RedBlackOk (t.replace p s') := by
        intro s' h1 h2 h3
        refine ⟨hrem _ (hkeys s' h1), (redBlackOk_iff _).2 ⟨?_, ?_⟩⟩
        · rw [hplug]
          exact plug_rb _ s' m h2 hctx (fun h => .inr (hred_head (h3 h)))
        · rw [hplug]
          by_cases hA : t.above p = []
          · rw [hA]
            simp only [plug]
            rw [hA] at hback
            simp only [plug] at hback
            by_contra hcon
            rw [Bool.not_eq_false] at hcon
            have := h3 hcon
            rw [← hback, this] at hroot
            cases hroot
          · rw [plug_isRed (t.above p) s' (.node l (v, c) r) hA, hback, hroot]
      have hthree : LoopOk (t.keys.filter (fun x => x ≠ v)) (rbCase3 v t p l r (rbChoice l r) s) := by
        unfold rbCase3
        simp only [descend_eq, List.append_nil]
        cases h2 : (t.replace p s).walk (p ++ rbReplacementPath l r (rbChoice l r)).dropLast with
        | nil => rfl
        | node a x b =>
          have h4 : plug (.node a x b) ((t.replace p s).above
              (p ++ rbReplacementPath l r (rbChoice l r)).dropLast) = t.replace p s := by
            rw [← h2]; exact plug_above _ _ (by rw [h2]; simp)
          have h5 := fun d => double_ok 1 a x b _ d (by rw [h4, hkeys s hskeys]; exact hk.filter _)
          rw [h4, hkeys s hskeys] at h5
          simp only
          have h6 := h5 (rbDbn (match rbChoice l r with
            | .none => none
            | _ => some (((t.replace p s).dataAt (p ++ rbReplacementPath l r (rbChoice l r))).getD v)) a x b)
          revert h6
          rw [show (1 + 4) = rbRounds from rfl]
          generalize rbDouble rbRounds a x b _ _ = u
          intro h6
          match u, h6 with
          | .error _, h6 => exact h6
          | .ok u, h6 => exact (blacken_keys u).trans h6
      have hblack : (∃ u, rbRemoveTree v t = .ok (.ok (.unit, false), u) ∧
            u.keys = t.keys.filter (fun x => x ≠ v)) ∨ rbRemoveTree v t = .error .attributeError →
          (do let (res, s) ← rbRemoveTree v t
              pure (res, (⟨s, match res with | .ok (_, false) => k - 1 | _ => k⟩ : Bst N Color)) :
                Except Err (BstRes N × Bst N Color)) = .error .attributeError ∨
          ∃ t', (do let (res, s) ← rbRemoveTree v t
                    pure (res, (⟨s, match res with | .ok (_, false) => k - 1 | _ => k⟩ : Bst N Color)) :
                Except Err (BstRes N × Bst N Color)) = .ok (.ok (.unit, false), t') ∧
            RemovedFrom ⟨t, k⟩ v t' := by
        rintro (⟨u, hu, hku⟩ | hu)
        · right; exact ⟨⟨u, k - 1⟩, by rw [hu]; rfl, hrem u hku⟩
        · left; rw [hu]; rfl
      have hloop : (∀ y, rbRemoveTree v t = y → y = (do
            let u ← rbCase3 v t p l r (rbChoice l r) s
            pure (.ok (.unit, false), u)) → ((∃ u, rbRemoveTree v t = .ok (.ok (.unit, false), u) ∧
            u.keys = t.keys.filter (fun x => x ≠ v)) ∨ rbRemoveTree v t = .error .attributeError)) := by
        intro y hy e
        rw [hy, e]
        revert hthree
        generalize rbCase3 v t p l r (rbChoice l r) s = u
        intro h5
        match u, h5 with
        | .error _, h5 => right; rw [show _ = Err.attributeError from h5]; rfl
        | .ok u, h5 => left; exact ⟨u, rfl, h5⟩
      refine ⟨fun h => ?_, fun hcr h2 h3 => ?_, fun hcb h2 => ?_⟩
      · rcases h with ⟨rfl, rfl, rfl⟩ | h
        · have hcol : col = none := c1.2 ⟨rfl, rfl⟩
          subst hcol
          obtain rfl := c3 rfl
          have hm0 : m = 0 := by
            obtain ⟨m', h1, h2, -⟩ := hm
            have : m' = 0 := h2
            rw [h1, this]; rfl
          obtain ⟨k1, k2⟩ := hput .nil (by simp) (by simpa [rbI] using hm0) (by simp)
          refine ⟨_, ?_, k1, k2⟩
          simp only [rbRemoveTree, hsearch, hwalk, e, ne_eq, not_true_eq_false, if_false]; rfl
        · have hcol : col = some .red := c2.2 h
          subst hcol
          obtain ⟨k1, k2⟩ := c4 rfl
          cases c with
          | red =>
            obtain ⟨k3, k4⟩ := k2 rfl
            obtain ⟨k5, k6⟩ := hput s hskeys k3 (fun _ => rfl)
            exact ⟨_, by simp only [rbRemoveTree, hsearch, hwalk, e, ne_eq, not_true_eq_false, if_false]; rfl, k5, k6⟩
          | black =>
            have hm1 : m - Color.bl .black + 1 = m := by
              obtain ⟨m', h1, -⟩ := hm
              simp only [Color.bl] at h1 ⊢
              omega
            simp only at k1
            rw [hm1] at k1
            obtain ⟨k5, k6⟩ := hput s.blacken (by rw [blacken_keys, hskeys]) k1 (by simp)
            exact ⟨_, by simp only [rbRemoveTree, hsearch, hwalk, e, ne_eq, not_true_eq_false, if_false]; rfl, k5, k6⟩
      · subst hcr
        have hcol : col = some .black := by
          match col, c1, c2 with
          | none, c1, _ => exact absurd (c1.1 rfl) h2
          | some .red, _, c2 => exact absurd (c2.1 rfl) h3
          | some .black, _, _ => rfl
        subst hcol
        simp only [rbRemoveTree, hsearch, hwalk, e, ne_eq, not_true_eq_false, if_false]; rfl
      · subst hcb
        refine hblack ?_
        match col, c2, e with
        | none, _, e => exact hloop _ (by simp only [rbRemoveTree, hsearch, hwalk, e, ne_eq, not_true_eq_false, if_false]) rfl
        | some .red, c2, _ => exact absurd (c2.1 rfl) h2
        | some .black, _, e => exact hloop _ (by simp only [rbRemoveTree, hsearch, hwalk, e, ne_eq, not_true_eq_false, if_false]) rfl

example : rbSample.root.sub [true, false] = .node .nil (5, .red) .nil := by decide +kernel
example : rbSample.root.sub [true] = .node (.node .nil (5, .red) .nil) (6, .black) (.node .nil (7, .red) .nil) := by
  decide +kernel
example : RedNeighbour (.node .nil (5, .red) .nil : BTree (Fin 20 × Color)) (.node .nil (7, .red) .nil) :=
  .inl ⟨7, rfl⟩
example : (rbExec rbSample (.remove (.num 6))).map (fun r => (r.1, r.2.root.keys)) =
    .ok (.ok (.unit, false), [1, 2, 3, 4, 5, 7]) := by decide +kernel

/-- C56 fails: after inserting 0, 1, 2, 3, 4, 5, `remove(3)` raises `ValueError`. -/
theorem C56_value_error : ¬ ∀ (vs : List (Fin 20)) rs t (v : Fin 20),
    rbExecs (rbInserts vs) Bst.empty = .ok (rs, t) → ∃ w t', rbExec t (.remove (.num v)) = .ok (.ok w, t') := by
  intro h
  have e2 : ∃ rs t, rbExecs (rbInserts [0, 1, 2, 3, 4, 5]) (Bst.empty : Bst (Fin 20) Color) = .ok (rs, t) ∧
      rbExec t (.remove (.num 3)) = .ok (.error .valueError, t) := by
    refine ⟨_, match rbExecs (rbInserts [0, 1, 2, 3, 4, 5]) (Bst.empty : Bst (Fin 20) Color) with
      | .ok (_, t) => t
      | .error _ => Bst.empty, rfl, by decide +kernel⟩
  obtain ⟨rs, t, e3, e4⟩ := e2
  obtain ⟨w, t', e5⟩ := h _ _ _ 3 e3
  rw [e4] at e5
  cases e5

/-- C56 fails: after inserting 1, 2, 3, 0 — a tree with the invariants — `remove(2)` raises
`AttributeError`. -/
theorem C56_attribute_error : ¬ ∀ (vs : List (Fin 20)) rs t (v : Fin 20),
    rbExecs (rbInserts vs) Bst.empty = .ok (rs, t) → RedBlackOk t.root →
    ∃ r, rbExec t (.remove (.num v)) = .ok r := by
  intro h
  have e3 : rbExecs (rbInserts [1, 2, 3, 0]) (Bst.empty : Bst (Fin 20) Color) =
      .ok (List.replicate 4 (.ok (.unit, false)), ⟨.node (.node (.node .nil (0, .red) .nil) (1, .black) .nil)
        (2, .black) (.node .nil (3, .black) .nil), 4⟩) := by decide +kernel
  obtain ⟨r, e5⟩ := h _ _ _ 2 e3 ((redBlackOk_iff _).2 ⟨⟨2, by simp [rbI, Color.bl, BTree.isRed]⟩, rfl⟩)
  have e4 : rbExec (⟨.node (.node (.node .nil (0, .red) .nil) (1, .black) .nil)
        (2, .black) (.node .nil (3, .black) .nil), 4⟩ : Bst (Fin 20) Color) (.remove (.num 2)) =
      .error .attributeError := by decide +kernel
  rw [e4] at e5
  cases e5

/-- C56 fails: after inserting 0, 1, 2, 3 — a tree with the invariants — `remove(1)` loses them. -/
theorem C56_invariants_lost : ¬ ∀ (vs : List (Fin 20)) rs t (v : Fin 20) r t',
    rbExecs (rbInserts vs) Bst.empty = .ok (rs, t) → RedBlackOk t.root →
    rbExec t (.remove (.num v)) = .ok (r, t') → RedBlackOk t'.root := by
  intro h
  have e3 : rbExecs (rbInserts [0, 1, 2, 3]) (Bst.empty : Bst (Fin 20) Color) =
      .ok (List.replicate 4 (.ok (.unit, false)), ⟨.node (.node .nil (0, .black) .nil)
        (1, .black) (.node .nil (2, .black) (.node .nil (3, .red) .nil)), 4⟩) := by decide +kernel
  obtain ⟨-, ⟨n, hn⟩, -⟩ := h _ _ _ 1 (.ok (.unit, false)) (match rbExec (⟨.node (.node .nil (0, .black) .nil)
        (1, .black) (.node .nil (2, .black) (.node .nil (3, .red) .nil)), 4⟩ : Bst (Fin 20) Color)
        (.remove (.num 1)) with
      | .ok (_, t) => t
      | .error _ => Bst.empty) e3
    ((redBlackOk_iff _).2 ⟨⟨2, by simp [rbI, Color.bl, BTree.isRed]⟩, rfl⟩) (by decide +kernel)
  have h1 := hn [false, false] (missing_child _ _ [false] false (by decide +kernel) (by decide +kernel) rfl)
  have h2 := hn [true, true] (missing_child _ _ [true] true (by decide +kernel) (by decide +kernel) rfl)
  rw [← h2] at h1
  revert h1
  decide +kernel

/-- C56 fails: after some inserts and removals that all succeed the tree is no search tree any more. -/
theorem C56_order_lost : ¬ ∀ (ops : List (RbOp (Fin 20))) rs t, rbExecs ops Bst.empty = .ok (rs, t) →
    SearchTree t.root := by
  intro h
  have := h (rbInserts [0, 6, 1, 2, 4, 3, 5] ++ [.remove (.num 1), .remove (.num 2), .remove (.num 3)])
    (List.replicate 10 (.ok (.unit, false)))
    (match rbExecs (rbInserts [0, 6, 1, 2, 4, 3, 5] ++ [.remove (.num 1), .remove (.num 2), .remove (.num 3)])
        (Bst.empty : Bst (Fin 20) Color) with
      | .ok (_, t) => t
      | .error _ => Bst.empty) (by decide +kernel)
  unfold SearchTree at this
  revert this
  decide +kernel

/-! ## C71 -/

/-- C71: with the colour invariants `get_black_height` is the number of black nodes on every path from the
root to a missing child; on an empty tree it raises `AttributeError`. -/
theorem C71_black_height (t : Bst N Color) (hc : RedBlackOk t.root) :
    (t.root = .nil → rbExec t .blackHeight = .ok (.error .attributeError, t)) ∧
    (t.root ≠ .nil → ∃ n : Nat, rbExec t .blackHeight = .ok (.ok (.int n, false), t) ∧
      ∀ p, MissingAt t.root p → blacksOn t.root p = n) := by
  obtain ⟨t, k⟩ := t
  obtain ⟨⟨n, hn⟩, hroot⟩ := (redBlackOk_iff _).1 hc
  have left : ∀ (t : BTree (N × Color)) n, rbI t n → t.leftBlacks = n := by
    intro t
    induction t with
    | nil => intro n h; exact (show n = 0 from h).symm
    | node l w r ih _ =>
      rintro n ⟨m, rfl, h, -⟩
      rw [BTree.leftBlacks, ih m h]
      cases w.2 <;> simp [Color.bl]; omega
  constructor
  · rintro h; simp only at h; subst h; rfl
  · intro h
    simp only at h hn hroot
    refine ⟨n, ?_, ((rbI_blacks t n).1 hn).2⟩
    cases t with
    | nil => exact absurd rfl h
    | node l w r =>
      obtain ⟨m, rfl, hl, -⟩ := hn
      rw [isRed_node_false] at hroot
      simp only [rbExec, rbBlackHeight, left l m hl, hroot, Color.bl]
      rfl

example : rbExec rbSample .blackHeight = .ok (.ok (.int 2, false), rbSample) := by decide +kernel

end Extra
