import Verif.Trees.AvlNanProofs
import Mathlib.Order.WithBot

/-!
# `nan` inserted last into an `AVL`: helper lemmas

A `nan` inserted into a tree of numbers goes to the far right, as a number above all others would.  It stays a leaf, so no
comparison with it from below is made, and `insert` does what it would do for that number.
-/

set_option linter.unusedSectionVars false

namespace Extra
variable {N : Type}

/-- the number above all others stands for `nan` -/
def topNum : WithTop N → PyNum N
  | none => .nan
  | some a => .num a

/-- the tree with `nan` for the number above all others -/
def ntOf : BTree (WithTop N × Nat) → BTree (PyNum N × Nat)
  | .nil => .nil
  | .node l w r => .node (ntOf l) (topNum w.1, w.2) (ntOf r)

/-- the number above all others is at leaves only -/
def TopLeaf : BTree (WithTop N × Nat) → Prop
  | .nil => True
  | .node l w r => TopLeaf l ∧ TopLeaf r ∧ (w.1 = ⊤ → l = .nil ∧ r = .nil)

variable [LinearOrder N]

theorem topNum_lt (a : WithTop N) {b : WithTop N} (hb : b ≠ ⊤) : (topNum a).lt (topNum b) = decide (a < b) := by
  cases b with
  | top => exact absurd rfl hb
  | coe b =>
    cases a with
    | top => exact (decide_eq_false (by simp)).symm
    | coe a => exact (decide_eq_decide.2 WithTop.coe_lt_coe).symm

theorem topNum_eq (a : WithTop N) {b : WithTop N} (hb : b ≠ ⊤) : (topNum a).eq (topNum b) = decide (a = b) := by
  cases b with
  | top => exact absurd rfl hb
  | coe b =>
    cases a with
    | top => exact (decide_eq_false (by simp)).symm
    | coe a => exact (decide_eq_decide.2 WithTop.coe_inj).symm

theorem ntOf_hl (t : BTree (WithTop N × Nat)) : naHl (ntOf t) = t.hl := by cases t <;> rfl

theorem ntOf_node (l : BTree (WithTop N × Nat)) (v) (r) :
    ntOf (avlNode l v r) = naNode (ntOf l) (topNum v) (ntOf r) := by
  simp [avlNode, naNode, ntOf, ntOf_hl]

theorem ntOf_heavy (l r : BTree (WithTop N × Nat)) : ntOf (heavy l r) = naHeavy (ntOf l) (ntOf r) := by
  unfold heavy naHeavy
  rw [ntOf_hl, ntOf_hl]
  split <;> rfl

theorem ntOf_rotateLeft (t : BTree (WithTop N × Nat)) : naRotateLeft (ntOf t) = t.avlRotateLeft.map ntOf := by
  rcases t with _ | ⟨a, v, _ | ⟨b, w, c⟩⟩ <;>
    simp [ntOf, naRotateLeft, BTree.avlRotateLeft, Except.map, ntOf_node]

theorem ntOf_rotateRight (t : BTree (WithTop N × Nat)) : naRotateRight (ntOf t) = t.avlRotateRight.map ntOf := by
  rcases t with _ | ⟨_ | ⟨b, w, c⟩, v, a⟩ <;>
    simp [ntOf, naRotateRight, BTree.avlRotateRight, Except.map, ntOf_node]

theorem ntOf_rotateLeftRight (t : BTree (WithTop N × Nat)) :
    naRotateLeftRight (ntOf t) = t.avlRotateLeftRight.map ntOf := by
  rcases t with _ | ⟨_ | ⟨b, w, _ | ⟨c, x, d⟩⟩, v, a⟩ <;>
    simp [ntOf, naRotateLeftRight, BTree.avlRotateLeftRight, Except.map, ntOf_node]

theorem ntOf_rotateRightLeft (t : BTree (WithTop N × Nat)) :
    naRotateRightLeft (ntOf t) = t.avlRotateRightLeft.map ntOf := by
  rcases t with _ | ⟨a, v, _ | ⟨_ | ⟨c, x, d⟩, w, b⟩⟩ <;>
    simp [ntOf, naRotateRightLeft, BTree.avlRotateRightLeft, Except.map, ntOf_node]

theorem heavy_or (l r : BTree (WithTop N × Nat)) : heavy l r = l ∨ heavy l r = r := by
  unfold heavy; split <;> simp

theorem TopLeaf.ne {l r : BTree (WithTop N × Nat)} {w} (h : TopLeaf (.node l w r)) {a b c}
    (e : heavy l r = .node a b c) : w.1 ≠ ⊤ := by
  intro hw
  obtain ⟨rfl, rfl⟩ := h.2.2 hw
  rcases heavy_or (.nil : BTree (WithTop N × Nat)) .nil with k | k <;> rw [k] at e <;> cases e

theorem TopLeaf.heavy {l r : BTree (WithTop N × Nat)} {w} (h : TopLeaf (.node l w r)) : TopLeaf (Extra.heavy l r) := by
  rcases heavy_or l r with k | k <;> rw [k]
  · exact h.1
  · exact h.2.1

theorem ntOf_rebalance {t : BTree (WithTop N × Nat)} (h : TopLeaf t) :
    naRebalance (ntOf t) = t.rebalance.map ntOf := by
  rcases t with _ | ⟨l, g, r⟩
  · rfl
  · have e : ntOf (.node l g r) = .node (ntOf l) (topNum g.1, g.2) (ntOf r) := rfl
    rw [BTree.rebalance, e, naRebalance, ← ntOf_heavy]
    have hh := h.heavy
    cases k : heavy l r with
    | nil => rfl
    | node pl p pr =>
      have hg := h.ne k
      rw [k] at hh
      simp only [ntOf]
      rw [← ntOf_heavy]
      cases k' : heavy pl pr with
      | nil => rfl
      | node nl n nr =>
        have hp := hh.ne k'
        have e1 := ntOf_rotateLeft (.node l g r)
        have e2 := ntOf_rotateRight (.node l g r)
        have e3 := ntOf_rotateLeftRight (.node l g r)
        have e4 := ntOf_rotateRightLeft (.node l g r)
        rw [e] at e1 e2 e3 e4
        simp only [ntOf, topNum_lt _ hg, topNum_lt _ hp, decide_eq_true_eq, gt_iff_lt, e1, e2, e3, e4]
        split_ifs <;> rfl

theorem topLeaf_rebalance {t s : BTree (WithTop N × Nat)} (h : TopLeaf t) (hs : t.keys.Pairwise (· < ·))
    (e : t.rebalance = .ok s) : TopLeaf s := by
  rcases t with _ | ⟨l, g, r⟩
  · cases e
  · rw [BTree.rebalance] at e
    have hh := h.heavy
    obtain ⟨s1, s2, s3, s4⟩ := sorted_node.1 hs
    cases k : heavy l r with
    | nil => rw [k] at e; cases e
    | node pl p pr =>
      have hg := h.ne k
      rw [k] at hh e
      simp only at e
      cases k' : heavy pl pr with
      | nil => rw [k'] at e; cases e
      | node nl n nr =>
        have hp := hh.ne k'
        rw [k'] at e
        simp only at e
        have hlt : ∀ {a : WithTop N × Nat} {x y : BTree (WithTop N × Nat)}, l = .node x a y → a.1 ≠ ⊤ := by
          rintro a x y rfl
          exact ne_top_of_lt (s3 a.1 root_mem)
        split_ifs at e with c1 c2 c2
        · rcases l with _ | ⟨a, v, b⟩
          · cases e
          · cases e
            have hv : v.1 ≠ ⊤ := hlt rfl
            exact ⟨h.1.1, ⟨h.1.2.1, h.2.1, fun q => absurd q hg⟩, fun q => absurd q hv⟩
        · rcases l with _ | ⟨a, v, _ | ⟨b, x, c⟩⟩
          · cases e
          · cases e
          · cases e
            have hx : x.1 ≠ ⊤ := ne_top_of_lt (s3 x.1 (by simp))
            have hv : v.1 ≠ ⊤ := hlt rfl
            exact ⟨⟨h.1.1, h.1.2.1.1, fun q => absurd q hv⟩, ⟨h.1.2.1.2.1, h.2.1, fun q => absurd q hg⟩,
              fun q => absurd q hx⟩
        · rcases r with _ | ⟨_ | ⟨b, x, c⟩, v, d⟩
          · cases e
          · cases e
          · cases e
            have hv : v.1 ≠ ⊤ := fun q => by have := (h.2.1.2.2 q).1; cases this
            have hx : x.1 ≠ ⊤ := ne_top_of_lt ((sorted_node.1 s2).2.2.1 x.1 root_mem)
            exact ⟨⟨h.1, h.2.1.1.1, fun q => absurd q hg⟩, ⟨h.2.1.1.2.1, h.2.1.2.1, fun q => absurd q hv⟩,
              fun q => absurd q hx⟩
        · rcases r with _ | ⟨b, v, c⟩
          · cases e
          · cases e
            have hv : v.1 ≠ ⊤ := by
              rcases heavy_or l (.node b v c) with q | q
              · rw [k] at q
                exact absurd (s3 p.1 (by rw [← q]; exact root_mem)) c1
              · rw [k] at q
                cases q
                exact hp
            exact ⟨⟨h.1, h.2.1.1, fun q => absurd q hg⟩, h.2.1.2.1, fun q => absurd q hv⟩

theorem ntOf_up {l r : BTree (WithTop N × Nat)} {v} (hl : TopLeaf l) (hr : TopLeaf r) (hv : v ≠ ⊤) :
    naUp (ntOf l) (topNum v) (ntOf r) = (avlUp l v r).map fun x => (ntOf x.1, x.2) := by
  have h : TopLeaf (avlNode l v r) := ⟨hl, hr, fun q => absurd q hv⟩
  unfold naUp avlUp
  rw [ntOf_hl, ntOf_hl, ← ntOf_node, ntOf_rebalance h]
  split_ifs
  · rfl
  · cases (avlNode l v r).rebalance <;> rfl

theorem topLeaf_up {l r t : BTree (WithTop N × Nat)} {v rot} (hl : TopLeaf l) (hr : TopLeaf r) (hv : v ≠ ⊤)
    (hs : (l.keys ++ v :: r.keys).Pairwise (· < ·)) (e : avlUp l v r = .ok (t, rot)) : TopLeaf t := by
  have h : TopLeaf (avlNode l v r) := ⟨hl, hr, fun q => absurd q hv⟩
  unfold avlUp at e
  split_ifs at e
  · cases e; exact h
  · cases k : (avlNode l v r).rebalance with
    | error => rw [k] at e; cases e
    | ok s =>
      rw [k] at e
      cases e
      exact topLeaf_rebalance h (by simpa using hs) k

theorem ntOf_link (left : Bool) {c o : BTree (WithTop N × Nat)} (rot : Bool) {w} (hc : TopLeaf c) (ho : TopLeaf o)
    (hw : w ≠ ⊤) :
    naLink left (ntOf c) rot (topNum w) (ntOf o) = (avlLink left c rot w o).map fun x => (ntOf x.1, x.2) := by
  have e : naAttachSide (topNum w) (ntOf c) left = attachSide w c left := by
    cases c with
    | nil => rfl
    | node a b d => simp only [ntOf, naAttachSide, attachSide, topNum_lt _ hw]
  unfold naLink avlLink
  rw [e, ntOf_up hc ho hw, ntOf_up ho hc hw]
  split_ifs <;> rfl

theorem topLeaf_of {t : BTree (WithTop N × Nat)} (h : ⊤ ∉ t.keys) : TopLeaf t := by
  induction t with
  | nil => trivial
  | node l w r ihl ihr =>
    simp only [BTree.keys_node, List.mem_append, List.mem_cons, not_or] at h
    exact ⟨ihl h.1, ihr h.2.2, fun q => absurd q.symm h.2.1⟩

theorem ntOf_insert (v : WithTop N) : ∀ t : BTree (WithTop N × Nat), t.keys.Pairwise (· < ·) → ⊤ ∉ t.keys →
    naInsert (topNum v) (ntOf t) = (t.avlInsert v).map (fun x => (ntOf x.1, x.2)) ∧
    ∀ t' rot new, t.avlInsert v = .ok (t', rot, new) → TopLeaf t'
  | .nil, _, _ => ⟨rfl, fun t' rot new h => by cases h; exact ⟨trivial, trivial, fun _ => ⟨rfl, rfl⟩⟩⟩
  | .node l w r, hs, ht => by
    have hs' := insertNode_sorted (v, 0) _ hs
    have h0 := topLeaf_of ht
    obtain ⟨s1, s2, s3, s4⟩ := sorted_node.1 hs
    simp only [BTree.keys_node, List.mem_append, List.mem_cons, not_or] at ht
    obtain ⟨t1, t2, t3⟩ := ht
    have hw : w.1 ≠ ⊤ := fun q => t2 q.symm
    obtain ⟨il, jl⟩ := ntOf_insert v l s1 t1
    obtain ⟨ir, jr⟩ := ntOf_insert v r s2 t3
    have e : ntOf (.node l w r) = .node (ntOf l) (topNum w.1, w.2) (ntOf r) := rfl
    rw [e, naInsert, BTree.avlInsert, il, ir, topNum_eq _ hw, topNum_lt _ hw]
    simp only [decide_eq_true_eq]
    rw [insertNode_node] at hs'
    split_ifs at hs' ⊢
    · refine ⟨rfl, fun t' rot new k => ?_⟩
      cases k
      exact h0
    · cases k : l.avlInsert v with
      | error => exact ⟨rfl, fun t' rot new q => by cases q⟩
      | ok x =>
        obtain ⟨l', rot, new⟩ := x
        have tl := jl _ _ _ k
        simp only [Except.map, bind, Except.bind, ntOf_link true rot tl h0.2.1 hw]
        cases k' : avlLink true l' rot w.1 r with
        | error => exact ⟨rfl, fun t' rot new q => by cases q⟩
        | ok y =>
          refine ⟨rfl, fun t' rot new q => ?_⟩
          cases q
          unfold avlLink at k'
          split_ifs at k'
          · refine topLeaf_up tl h0.2.1 hw ?_ k'
            rw [(avlInsert_keys v k).1]
            simpa using hs'
          · exact absurd rfl ‹_›
    · cases k : r.avlInsert v with
      | error => exact ⟨rfl, fun t' rot new q => by cases q⟩
      | ok x =>
        obtain ⟨r', rot, new⟩ := x
        have tl := jr _ _ _ k
        simp only [Except.map, bind, Except.bind, ntOf_link false rot tl h0.1 hw]
        cases k' : avlLink false r' rot w.1 l with
        | error => exact ⟨rfl, fun t' rot new q => by cases q⟩
        | ok y =>
          refine ⟨rfl, fun t' rot new q => ?_⟩
          cases q
          unfold avlLink at k'
          split_ifs at k'
          · exact absurd ‹False› id
          · refine topLeaf_up h0.1 tl hw ?_ k'
            rw [(avlInsert_keys v k).1]
            simpa using hs'

theorem ntOf_search (v : N) : ∀ t : BTree (WithTop N × Nat), t.keys.Pairwise (· < ·) → TopLeaf t → (v : WithTop N) ∈ t.keys →
    naSearch (.num v) (ntOf t) = some (.num v)
  | .nil, _, _, h => by simp at h
  | .node l w r, hs, ht, h => by
    obtain ⟨s1, s2, s3, s4⟩ := sorted_node.1 hs
    simp only [BTree.keys_node, List.mem_append, List.mem_cons] at h
    have hw : w.1 ≠ ⊤ := by
      intro q
      obtain ⟨rfl, rfl⟩ := ht.2.2 q
      rw [q] at h
      simp at h
    have q1 := topNum_eq (v : WithTop N) hw
    have q2 := topNum_lt (v : WithTop N) hw
    have q3 : topNum (v : WithTop N) = .num v := rfl
    rw [q3] at q1 q2
    simp only [ntOf, naSearch, q1, q2, decide_eq_true_eq]
    split_ifs with h1 h2
    · rw [← h1, q3]
    · rcases h with h | h | h
      · rw [ntOf_search v l s1 ht.1 h]; rfl
      · exact absurd h h1
      · exact absurd (s4 _ h) (lt_asymm h2)
    · rcases h with h | h | h
      · exact absurd (s3 _ h) h2
      · exact absurd h h1
      · rw [ntOf_search v r s2 ht.2.1 h]; rfl

theorem ntOf_keys (t : BTree (WithTop N × Nat)) : naKeys (ntOf t) = t.keys.map topNum := by
  induction t with
  | nil => rfl
  | node l w r ihl ihr => simp [ntOf, ihl, ihr]

theorem ntOf_contains (t : BTree (WithTop N × Nat)) (h : t.keys.Pairwise (· < ·)) (ht : TopLeaf t) (v : N) :
    naContains (.num v) (ntOf t) = decide ((v : WithTop N) ∈ t.keys) := by
  unfold naContains
  by_cases hv : (v : WithTop N) ∈ t.keys
  · rw [ntOf_search v t h ht hv]
    simp [PyNum.eq, hv]
  · rw [decide_eq_false hv]
    split
    · rfl
    · rename_i w e
      have := naSearch_some _ _ _ e
      rw [ntOf_keys] at this
      obtain ⟨x, hx, rfl⟩ := List.mem_map.1 this
      cases x with
      | top => rfl
      | coe x =>
        refine decide_eq_false ?_
        rintro rfl
        exact hv hx

theorem ntOf_nlev (t : BTree (WithTop N × Nat)) : (ntOf t).nlev = t.nlev := by
  induction t with
  | nil => rfl
  | node l w r ihl ihr => simp [ntOf, BTree.nlev, ihl, ihr]

theorem ntOf_sub : ∀ (p : List Bool) (t : BTree (WithTop N × Nat)), (ntOf t).sub p = ntOf (t.sub p)
  | [], t => by cases t <;> rfl
  | b :: p, .nil => by cases b <;> rfl
  | true :: p, .node l w r => ntOf_sub p r
  | false :: p, .node l w r => ntOf_sub p l

theorem ntOf_balanced {t : BTree (WithTop N × Nat)} (h : Balanced t) : Balanced (ntOf t) := by
  intro p l w r e
  rw [ntOf_sub] at e
  cases k : t.sub p with
  | nil => rw [k] at e; cases e
  | node a b c =>
    rw [k] at e
    cases e
    rw [ntOf_nlev, ntOf_nlev]
    exact h p a b c k

theorem ntOf_inserts : ∀ (vs : List N) (t : BTree (WithTop N × Nat)), t.keys.Pairwise (· < ·) → avlOk t → ⊤ ∉ t.keys →
    ∃ s ws, naInserts (vs.map .num ++ [.nan]) (ntOf t) = .ok (ntOf s, ws) ∧ s.keys.Pairwise (· < ·) ∧ avlOk s ∧ TopLeaf s ∧
      ∀ v, v ∈ s.keys ↔ (v = ⊤ ∨ v ∈ vs.map WithTop.some ∨ v ∈ t.keys)
  | [], t, h1, h2, h3 => by
    obtain ⟨t', rot, new, e, ok, -⟩ := avlInsert_ok (⊤ : WithTop N) t h1 h2
    obtain ⟨k, -⟩ := avlInsert_keys ⊤ e
    obtain ⟨i, j⟩ := ntOf_insert ⊤ t h1 h3
    refine ⟨t', [!new], ?_, k ▸ insertNode_sorted (⊤, 0) t h1, ok, j _ _ _ e, fun x => ?_⟩
    · rw [e] at i
      simp only [List.map_nil, List.nil_append, naInserts]
      change naInsert .nan (ntOf t) = _ at i
      rw [i]
      rfl
    · rw [k, insertNode_mem]
      simp
  | v :: vs, t, h1, h2, h3 => by
    obtain ⟨t', rot, new, e, ok, -⟩ := avlInsert_ok (v : WithTop N) t h1 h2
    obtain ⟨k, -⟩ := avlInsert_keys _ e
    obtain ⟨i, j⟩ := ntOf_insert (v : WithTop N) t h1 h3
    have h3' : ⊤ ∉ t'.keys := by
      rw [k, insertNode_mem]
      rintro (q | q)
      · cases q
      · exact h3 q
    obtain ⟨s, ws, e', q1, q2, q3, q4⟩ := ntOf_inserts vs t' (k ▸ insertNode_sorted (_, 0) t h1) ok h3'
    refine ⟨s, (!new) :: ws, ?_, q1, q2, q3, fun x => ?_⟩
    · rw [e] at i
      change naInsert (.num v) (ntOf t) = _ at i
      simp only [List.map_cons, List.cons_append, naInserts, i, Except.map, bind, Except.bind, e']
      rfl
    · rw [q4, k, insertNode_mem, List.map_cons, List.mem_cons]
      tauto

theorem keys_top {ys : List (WithTop N)} (h : ys.Pairwise (· < ·)) (ht : ⊤ ∈ ys) :
    ∃ xs : List N, ys = xs.map (↑) ++ [⊤] := by
  induction ys with
  | nil => cases ht
  | cons y ys ih =>
    obtain ⟨h1, h2⟩ := List.pairwise_cons.1 h
    cases y with
    | top =>
      cases ys with
      | nil => exact ⟨[], rfl⟩
      | cons z zs => exact absurd (h1 z (by simp)) (by simp)
    | coe y =>
      obtain ⟨xs, rfl⟩ := ih h2 (by simpa using ht)
      exact ⟨y :: xs, rfl⟩

end Extra
