import Verif.Trees.AvlNan
import Verif.Trees.AvlProofs

/-!
# Proofs for AvlNan.lean
-/

set_option linter.unusedSectionVars false

namespace Extra
variable {N : Type}

/-- the numbers of a tree in the order of `inorder_traverse` -/
def naKeys (t : BTree (PyNum N × Nat)) : List (PyNum N) := t.inorder.map Prod.fst

@[simp] theorem naKeys_nil : naKeys (BTree.nil : BTree (PyNum N × Nat)) = [] := rfl

@[simp] theorem naKeys_node (l : BTree (PyNum N × Nat)) (w r) :
    naKeys (.node l w r) = naKeys l ++ w.1 :: naKeys r := by simp [naKeys, BTree.inorder]

@[simp] theorem naNode_keys (l : BTree (PyNum N × Nat)) (v r) :
    naKeys (naNode l v r) = naKeys l ++ v :: naKeys r := by simp [naNode]

/-! ## What is kept -/

theorem naRotateLeft_keys {t s : BTree (PyNum N × Nat)} (h : naRotateLeft t = .ok s) : naKeys s = naKeys t := by
  unfold naRotateLeft at h
  split at h
  · cases h; simp
  · cases h

theorem naRotateRight_keys {t s : BTree (PyNum N × Nat)} (h : naRotateRight t = .ok s) : naKeys s = naKeys t := by
  unfold naRotateRight at h
  split at h
  · cases h; simp
  · cases h

theorem naRotateLeftRight_keys {t s : BTree (PyNum N × Nat)} (h : naRotateLeftRight t = .ok s) :
    naKeys s = naKeys t := by
  unfold naRotateLeftRight at h
  split at h
  · cases h; simp
  · cases h

theorem naRotateRightLeft_keys {t s : BTree (PyNum N × Nat)} (h : naRotateRightLeft t = .ok s) :
    naKeys s = naKeys t := by
  unfold naRotateRightLeft at h
  split at h
  · cases h; simp
  · cases h

variable [LinearOrder N]

theorem naRebalance_keys {t s : BTree (PyNum N × Nat)} (h : naRebalance t = .ok s) : naKeys s = naKeys t := by
  unfold naRebalance at h
  split at h
  · cases h
  · split at h
    · cases h
    · split at h
      · cases h
      · split_ifs at h
        · exact naRotateRight_keys h
        · exact naRotateLeftRight_keys h
        · exact naRotateRightLeft_keys h
        · exact naRotateLeft_keys h

theorem naUp_keys {l r t : BTree (PyNum N × Nat)} {v rot} (h : naUp l v r = .ok (t, rot)) :
    naKeys t = naKeys l ++ v :: naKeys r := by
  unfold naUp at h
  split_ifs at h
  · cases h; simp
  · cases e : naRebalance (naNode l v r) with
    | error => rw [e] at h; cases h
    | ok s =>
      rw [e] at h
      cases h
      rw [naRebalance_keys e]; simp

theorem naInsert_keys (v : PyNum N) : ∀ {t t' : BTree (PyNum N × Nat)} {rot new},
    naInsert v t = .ok (t', rot, new) →
    (new = true → ∃ a b, naKeys t = a ++ b ∧ naKeys t' = a ++ v :: b) ∧
    (new = false → naKeys t' = naKeys t ∧ ∃ x ∈ naKeys t, v.eq x = true)
  | .nil, t', rot, new, h => by
    cases h
    exact ⟨fun _ => ⟨[], [], rfl, rfl⟩, fun h => by cases h⟩
  | .node l w r, t', rot, new, h => by
    rw [naInsert] at h
    split_ifs at h with e e'
    · cases h
      exact ⟨fun h => (by cases h), fun _ => ⟨rfl, w.1, by simp, e⟩⟩
    · cases h1 : naInsert v l with
      | error => rw [h1] at h; cases h
      | ok x =>
        obtain ⟨l', rt, nw⟩ := x
        obtain ⟨i1, i2⟩ := naInsert_keys v h1
        rw [h1] at h
        cases h2 : naLink true l' rt w.1 r with
        | error => simp only [bind, Except.bind, h2] at h; cases h
        | ok y =>
          simp only [bind, Except.bind, h2] at h
          cases h
          unfold naLink at h2
          split_ifs at h2
          · constructor
            · intro hn
              obtain ⟨a, b, k1, k2⟩ := i1 hn
              exact ⟨a, b ++ w.1 :: naKeys r, by simp [k1], by rw [naUp_keys h2, k2]; simp⟩
            · intro hn
              obtain ⟨k1, x, hx, k2⟩ := i2 hn
              exact ⟨by rw [naUp_keys h2, k1]; simp, x, by simp [hx], k2⟩
          · exact absurd rfl ‹_›
    · cases h1 : naInsert v r with
      | error => rw [h1] at h; cases h
      | ok x =>
        obtain ⟨r', rt, nw⟩ := x
        obtain ⟨i1, i2⟩ := naInsert_keys v h1
        rw [h1] at h
        cases h2 : naLink false r' rt w.1 l with
        | error => simp only [bind, Except.bind, h2] at h; cases h
        | ok y =>
          simp only [bind, Except.bind, h2] at h
          cases h
          unfold naLink at h2
          split_ifs at h2
          · exact absurd ‹False› id
          · constructor
            · intro hn
              obtain ⟨a, b, k1, k2⟩ := i1 hn
              exact ⟨naKeys l ++ w.1 :: a, b, by simp [k1], by rw [naUp_keys h2, k2]; simp⟩
            · intro hn
              obtain ⟨k1, x, hx, k2⟩ := i2 hn
              exact ⟨by rw [naUp_keys h2, k1]; simp, x, by simp [hx], k2⟩

theorem PyNum.eq_nan (x : PyNum N) : (PyNum.nan : PyNum N).eq x = false := by cases x <;> rfl

theorem naContains_nan (t : BTree (PyNum N × Nat)) : naContains .nan t = false := by
  unfold naContains
  split
  · rfl
  · rename_i w _
    cases w <;> rfl

/-! ## Without `nan` -/

/-- the same tree, its numbers taken for numbers that may be `nan` -/
def naOf : BTree (N × Nat) → BTree (PyNum N × Nat)
  | .nil => .nil
  | .node l w r => .node (naOf l) (.num w.1, w.2) (naOf r)

theorem naOf_hl (t : BTree (N × Nat)) : naHl (naOf t) = t.hl := by cases t <;> rfl

theorem naOf_node (l : BTree (N × Nat)) (v : N) (r) : naOf (avlNode l v r) = naNode (naOf l) (.num v) (naOf r) := by
  simp [avlNode, naNode, naOf, naOf_hl]

theorem naOf_heavy (l r : BTree (N × Nat)) : naOf (heavy l r) = naHeavy (naOf l) (naOf r) := by
  unfold heavy naHeavy
  rw [naOf_hl, naOf_hl]
  split <;> rfl

theorem naOf_rotateLeft (t : BTree (N × Nat)) : naRotateLeft (naOf t) = t.avlRotateLeft.map naOf := by
  rcases t with _ | ⟨a, v, _ | ⟨b, w, c⟩⟩ <;>
    simp [naOf, naRotateLeft, BTree.avlRotateLeft, Except.map, naOf_node]

theorem naOf_rotateRight (t : BTree (N × Nat)) : naRotateRight (naOf t) = t.avlRotateRight.map naOf := by
  rcases t with _ | ⟨_ | ⟨b, w, c⟩, v, a⟩ <;>
    simp [naOf, naRotateRight, BTree.avlRotateRight, Except.map, naOf_node]

theorem naOf_rotateLeftRight (t : BTree (N × Nat)) : naRotateLeftRight (naOf t) = t.avlRotateLeftRight.map naOf := by
  rcases t with _ | ⟨_ | ⟨b, w, _ | ⟨c, x, d⟩⟩, v, a⟩ <;>
    simp [naOf, naRotateLeftRight, BTree.avlRotateLeftRight, Except.map, naOf_node]

theorem naOf_rotateRightLeft (t : BTree (N × Nat)) : naRotateRightLeft (naOf t) = t.avlRotateRightLeft.map naOf := by
  rcases t with _ | ⟨a, v, _ | ⟨_ | ⟨c, x, d⟩, w, b⟩⟩ <;>
    simp [naOf, naRotateRightLeft, BTree.avlRotateRightLeft, Except.map, naOf_node]

theorem naOf_rebalance (t : BTree (N × Nat)) : naRebalance (naOf t) = t.rebalance.map naOf := by
  rcases t with _ | ⟨l, g, r⟩
  · rfl
  · have e : naOf (.node l g r) = .node (naOf l) (.num g.1, g.2) (naOf r) := rfl
    rw [BTree.rebalance, e, naRebalance, ← naOf_heavy]
    cases heavy l r with
    | nil => rfl
    | node pl p pr =>
      simp only [naOf]
      rw [← naOf_heavy]
      cases heavy pl pr with
      | nil => rfl
      | node nl n nr =>
        have e1 := naOf_rotateLeft (.node l g r)
        have e2 := naOf_rotateRight (.node l g r)
        have e3 := naOf_rotateLeftRight (.node l g r)
        have e4 := naOf_rotateRightLeft (.node l g r)
        rw [e] at e1 e2 e3 e4
        simp only [naOf, PyNum.lt, decide_eq_true_eq, gt_iff_lt, e1, e2, e3, e4]
        split_ifs <;> rfl

theorem naOf_up (l : BTree (N × Nat)) (v : N) (r) :
    naUp (naOf l) (.num v) (naOf r) = (avlUp l v r).map fun x => (naOf x.1, x.2) := by
  unfold naUp avlUp
  rw [naOf_hl, naOf_hl, ← naOf_node, naOf_rebalance]
  split_ifs
  · rfl
  · cases (avlNode l v r).rebalance <;> rfl

theorem naOf_link (left : Bool) (c : BTree (N × Nat)) (rot : Bool) (w : N) (o : BTree (N × Nat)) :
    naLink left (naOf c) rot (.num w) (naOf o) = (avlLink left c rot w o).map fun x => (naOf x.1, x.2) := by
  have e : naAttachSide (.num w) (naOf c) left = attachSide w c left := by cases c <;> rfl
  unfold naLink avlLink
  rw [e, naOf_up, naOf_up]
  split_ifs <;> rfl

theorem naOf_insert (v : N) : ∀ t : BTree (N × Nat),
    naInsert (.num v) (naOf t) = (t.avlInsert v).map fun x => (naOf x.1, x.2)
  | .nil => rfl
  | .node l w r => by
    have e : naOf (.node l w r) = .node (naOf l) (.num w.1, w.2) (naOf r) := rfl
    rw [e, naInsert, BTree.avlInsert, naOf_insert v l, naOf_insert v r]
    simp only [PyNum.eq, PyNum.lt, decide_eq_true_eq]
    split_ifs
    · rfl
    · cases l.avlInsert v with
      | error => rfl
      | ok x =>
        obtain ⟨l', rot, new⟩ := x
        simp only [Except.map, bind, Except.bind, naOf_link]
        cases avlLink true l' rot w.1 r <;> rfl
    · cases r.avlInsert v with
      | error => rfl
      | ok x =>
        obtain ⟨r', rot, new⟩ := x
        simp only [Except.map, bind, Except.bind, naOf_link]
        cases avlLink false r' rot w.1 l <;> rfl

theorem naInserts_num : ∀ (vs : List N) (t : BTree (N × Nat)), t.keys.Pairwise (· < ·) → avlOk t →
    ∃ s ws, naInserts (vs.map .num) (naOf t) = .ok (naOf s, ws) ∧ s.keys.Pairwise (· < ·) ∧ avlOk s ∧
      ∀ v, v ∈ s.keys ↔ v ∈ vs ∨ v ∈ t.keys
  | [], t, h1, h2 => ⟨t, [], rfl, h1, h2, by simp⟩
  | v :: vs, t, h1, h2 => by
    obtain ⟨t', rot, new, e, ok, -⟩ := avlInsert_ok v t h1 h2
    obtain ⟨k, -⟩ := avlInsert_keys v e
    obtain ⟨s, ws, e', q1, q2, q3⟩ := naInserts_num vs t' (k ▸ insertNode_sorted (v, 0) t h1) ok
    refine ⟨s, (!new) :: ws, ?_, q1, q2, fun x => ?_⟩
    · simp only [List.map_cons, naInserts, naOf_insert, e, Except.map, bind, Except.bind, e']
      rfl
    · rw [q3, k, insertNode_mem, List.mem_cons]
      tauto

theorem naSearch_some (v : PyNum N) : ∀ t : BTree (PyNum N × Nat), ∀ x, naSearch v t = some x → x ∈ naKeys t
  | .nil, x, h => by cases h
  | .node l w r, x, h => by
    rw [naSearch] at h
    split_ifs at h
    · cases h; simp
    · cases e : naSearch v l with
      | none => rw [e] at h; cases h; simp
      | some y => rw [e] at h; cases h; simp [naSearch_some v l _ e]
    · cases e : naSearch v r with
      | none => rw [e] at h; cases h; simp
      | some y => rw [e] at h; cases h; simp [naSearch_some v r _ e]

theorem naOf_keys (t : BTree (N × Nat)) : naKeys (naOf t) = t.keys.map .num := by
  induction t with
  | nil => rfl
  | node l w r ihl ihr => simp [naOf, ihl, ihr]

theorem naSearch_held (v : N) : ∀ t : BTree (N × Nat), t.keys.Pairwise (· < ·) → v ∈ t.keys →
    naSearch (.num v) (naOf t) = some (.num v)
  | .nil, _, h => by simp at h
  | .node l w r, hs, h => by
    obtain ⟨s1, s2, s3, s4⟩ := sorted_node.1 hs
    simp only [BTree.keys_node, List.mem_append, List.mem_cons] at h
    simp only [naOf, naSearch, PyNum.eq, PyNum.lt, decide_eq_true_eq]
    split_ifs with h1 h2
    · rw [h1]
    · rcases h with h | h | h
      · rw [naSearch_held v l s1 h]; rfl
      · exact absurd h h1
      · exact absurd (s4 v h) (lt_asymm h2)
    · rcases h with h | h | h
      · exact absurd (s3 v h) h2
      · exact absurd h h1
      · rw [naSearch_held v r s2 h]; rfl

theorem naContains_num (t : BTree (N × Nat)) (h : t.keys.Pairwise (· < ·)) (v : N) :
    naContains (.num v) (naOf t) = decide (v ∈ t.keys) := by
  unfold naContains
  by_cases hv : v ∈ t.keys
  · rw [naSearch_held v t h hv]
    simp [PyNum.eq, hv]
  · rw [decide_eq_false hv]
    split
    · rfl
    · rename_i w e
      have := naSearch_some _ _ _ e
      rw [naOf_keys] at this
      obtain ⟨x, hx, rfl⟩ := List.mem_map.1 this
      simp only [PyNum.eq, decide_eq_false_iff_not]
      rintro rfl
      exact hv hx

end Extra
