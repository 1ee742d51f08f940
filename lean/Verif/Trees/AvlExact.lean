import Verif.Trees.AvlProofs
import Verif.Trees.AvlSpec

/-!
# When `remove` of an AVL tree loses the balance

For C44.  `goneWay`, `LosesLevel` and `Unbalances` are the specification; the rest are lemmas.
-/

namespace Extra
variable {N : Type} [LinearOrder N]

/-! ## The specification -/

/-- down the left edge -/
def leftEdge : BTree (N × Nat) → List Bool
  | .nil => []
  | .node .nil _ _ => []
  | .node (.node ll lv lr) _ _ => false :: leftEdge (.node ll lv lr)

/-- down the right edge -/
def rightEdge : BTree (N × Nat) → List Bool
  | .nil => []
  | .node _ _ .nil => []
  | .node _ _ (.node rl rv rr) => true :: rightEdge (.node rl rv rr)

/-- from a node that is removed to the node that goes in its place: the node of the next number below it;
of the number before, if there is no right child; the node itself, if it is a leaf -/
def goneBelow : BTree (N × Nat) → BTree (N × Nat) → List Bool
  | _, .node rl rv rr => true :: leftEdge (.node rl rv rr)
  | .node ll lv lr, .nil => false :: rightEdge (.node ll lv lr)
  | .nil, .nil => []

/-- the way to the node that goes when `v` is removed -/
def goneWay (v : N) : BTree (N × Nat) → List Bool
  | .nil => []
  | .node l w r =>
    if v < w.1 then false :: goneWay v l
    else if w.1 < v then true :: goneWay v r
    else goneBelow l r

/-- the two subtrees of the root have the same number of levels -/
def SameLevels : BTree (N × Nat) → Prop
  | .nil => True
  | .node l _ r => l.nlev = r.nlev

/-- the tree gets lower when the node at the end of the way goes: it does at the end; further up it does
if the lower tree was the higher of the two, or if it was the lower and the other one, that is rotated
up, is not even -/
def LosesLevel : BTree (N × Nat) → List Bool → Prop
  | .node l _ r, false :: p => LosesLevel l p ∧ (r.nlev < l.nlev ∨ (l.nlev < r.nlev ∧ ¬ SameLevels r))
  | .node l _ r, true :: p => LosesLevel r p ∧ (l.nlev < r.nlev ∨ (r.nlev < l.nlev ∧ ¬ SameLevels l))
  | _, _ => True

/-- a tree whose two subtrees have the same number of levels, the right one of them lighter on the
left -/
def Tie : BTree (N × Nat) → Prop
  | .node pl _ (.node b bv c) => pl.nlev = (BTree.node b bv c).nlev ∧ b.nlev + 2 = pl.nlev
  | _ => False

/-- somewhere on the way it goes right, the right subtree gets lower and was the lower one, and the left
one is a `Tie` -/
def Unbalances : BTree (N × Nat) → List Bool → Prop
  | .node l _ _, false :: p => Unbalances l p
  | .node l _ r, true :: p => Unbalances r p ∨ (LosesLevel r p ∧ r.nlev < l.nlev ∧ Tie l)
  | _, _ => False

/-! ## One node -/

theorem sameLevels_iff {t : BTree (N × Nat)} (h : hOk t) :
    SameLevels t ↔ ∀ a x b, t = .node a x b → a.hl = b.hl := by
  cases t with
  | nil => simp [SameLevels]
  | node l w r =>
    obtain ⟨h1, h2, _⟩ := h
    rw [SameLevels, ← h1.nlev, ← h2.nlev]
    constructor
    · rintro e a x b e'
      obtain ⟨rfl, rfl, rfl⟩ := BTree.node.inj e'
      exact e
    · exact fun k => k _ _ _ rfl

theorem tie_iff {t : BTree (N × Nat)} (h : hOk t) : Tie t ↔ badShape t := by
  rcases t with _ | ⟨pl, pv, _ | ⟨b, bv, c⟩⟩
  · rfl
  · rfl
  · obtain ⟨h1, h2, _⟩ := h
    rw [Tie, badShape, ← h1.nlev, ← h2.nlev, ← h2.1.nlev]

/-- the right side is too heavy -/
theorem right_heavy_iff {l r t : BTree (N × Nat)} {v : N} {rot : Bool} (hr : avlOk r)
    (hs : (l.keys ++ v :: r.keys).Pairwise (· < ·)) (hh : r.hl = l.hl + 2)
    (h : avlUp l v r = .ok (t, rot)) :
    (t.hl = r.hl ↔ ¬ SameLevels r) ∧ (avlOk t → avlOk l) := by
  rw [sameLevels_iff hr.hOk]
  obtain ⟨pl, p, pr, rfl⟩ := hl_pos (t := r) (by omega)
  obtain ⟨k1, k2, k3, k4, k5⟩ := hr
  have hs' : (BTree.node l (v, 0) (.node pl p pr)).keys.Pairwise (· < ·) := by
    rw [BTree.keys_node]; exact hs
  obtain ⟨s1, s2, s3, s4⟩ := sorted_node.1 hs'
  obtain ⟨t1, t2, t3, t4⟩ := sorted_node.1 s2
  have hpv : v < p.1 := s4 _ root_mem
  have e0 : (BTree.node pl p pr).hl = 1 + p.2 := rfl
  rw [avlUp, if_neg (by omega), avlNode, BTree.rebalance, heavy_right (by omega)] at h
  simp only [gt_iff_lt, if_neg (not_lt.2 hpv.le)] at h
  have hsame : (∀ a x b, BTree.node pl p pr = .node a x b → a.hl = b.hl) ↔ pl.hl = pr.hl :=
    ⟨fun k => k _ _ _ rfl, by rintro e a x b e'; obtain ⟨rfl, rfl, rfl⟩ := BTree.node.inj e'; exact e⟩
  rw [hsame]
  by_cases hc : pr.hl < pl.hl
  · obtain ⟨b, n, c, rfl⟩ := hl_pos (t := pl) (by omega)
    have hnp : n.1 < p.1 := t3 _ root_mem
    rw [heavy_left hc] at h
    simp only [if_pos hnp, BTree.avlRotateRightLeft, bind, Except.bind, pure, Except.pure, Except.ok.injEq,
      Prod.mk.injEq] at h
    obtain ⟨rfl, -⟩ := h
    obtain ⟨j1, j2, j3, j4, j5⟩ := k1
    refine ⟨?_, fun k => k.1.1⟩
    simp only [avlNode, hl_node] at *; omega
  · have hc' : pl.hl ≤ pr.hl := not_lt.1 hc
    obtain ⟨b, n, c, rfl⟩ := hl_pos (t := pr) (by omega)
    have hpn : p.1 < n.1 := t4 _ root_mem
    rw [heavy_right hc'] at h
    simp only [if_neg (not_lt.2 hpn.le), BTree.avlRotateLeft, bind, Except.bind, pure, Except.pure,
      Except.ok.injEq, Prod.mk.injEq] at h
    obtain ⟨rfl, -⟩ := h
    refine ⟨?_, fun k => k.1.1⟩
    simp only [avlNode, hl_node] at *; omega

/-- the left side is too heavy -/
theorem left_heavy_iff {l r t : BTree (N × Nat)} {v : N} {rot : Bool} (hl : avlOk l)
    (hs : (l.keys ++ v :: r.keys).Pairwise (· < ·)) (hh : l.hl = r.hl + 2)
    (h : avlUp l v r = .ok (t, rot)) :
    (t.hl = l.hl ↔ ¬ SameLevels l) ∧ (avlOk t → avlOk r ∧ ¬ Tie l) := by
  rw [sameLevels_iff hl.hOk, tie_iff hl.hOk]
  obtain ⟨pl, p, pr, rfl⟩ := hl_pos (t := l) (by omega)
  obtain ⟨k1, k2, k3, k4, k5⟩ := hl
  have hs' : (BTree.node (.node pl p pr) (v, 0) r).keys.Pairwise (· < ·) := by
    rw [BTree.keys_node]; exact hs
  obtain ⟨s1, s2, s3, s4⟩ := sorted_node.1 hs'
  obtain ⟨t1, t2, t3, t4⟩ := sorted_node.1 s1
  have hpv : p.1 < v := s3 _ root_mem
  have e0 : (BTree.node pl p pr).hl = 1 + p.2 := rfl
  rw [avlUp, if_neg (by omega), avlNode, BTree.rebalance, heavy_left (by omega)] at h
  simp only [gt_iff_lt, if_pos hpv] at h
  have hsame : (∀ a x b, BTree.node pl p pr = .node a x b → a.hl = b.hl) ↔ pl.hl = pr.hl :=
    ⟨fun k => k _ _ _ rfl, by rintro e a x b e'; obtain ⟨rfl, rfl, rfl⟩ := BTree.node.inj e'; exact e⟩
  rw [hsame]
  by_cases hc : pr.hl < pl.hl
  · obtain ⟨a, n, b, rfl⟩ := hl_pos (t := pl) (by omega)
    have hnp : n.1 < p.1 := t3 _ root_mem
    rw [heavy_left hc] at h
    simp only [if_pos hnp, BTree.avlRotateRight, bind, Except.bind, pure, Except.pure, Except.ok.injEq,
      Prod.mk.injEq] at h
    obtain ⟨rfl, -⟩ := h
    refine ⟨?_, fun k => ⟨k.2.1.2.1, ?_⟩⟩
    · simp only [avlNode, hl_node] at *; omega
    · cases pr with
      | nil => exact id
      | node b' n' c' => rintro ⟨k, -⟩; simp only [hl_node] at *; omega
  · have hc' : pl.hl ≤ pr.hl := not_lt.1 hc
    obtain ⟨b, n, c, rfl⟩ := hl_pos (t := pr) (by omega)
    have hpn : p.1 < n.1 := t4 _ root_mem
    rw [heavy_right hc'] at h
    simp only [if_neg (not_lt.2 hpn.le), BTree.avlRotateLeftRight, bind, Except.bind, pure, Except.pure,
      Except.ok.injEq, Prod.mk.injEq] at h
    obtain ⟨rfl, -⟩ := h
    obtain ⟨j1, j2, j3, j4, j5⟩ := k2
    refine ⟨?_, fun k => ⟨k.2.1.2.1, ?_⟩⟩
    · simp only [avlNode, hl_node] at *; omega
    · rintro ⟨q1, q2⟩
      obtain ⟨-, -, -, q3, q4⟩ := k.1
      omega

theorem up_left_exact {l l' r t : BTree (N × Nat)} {v : N} {rot : Bool} (hl' : hOk l') (hr : avlOk r)
    (hs : (l'.keys ++ v :: r.keys).Pairwise (· < ·)) (b1 : l.hl ≤ r.hl + 1) (b2 : r.hl ≤ l.hl + 1)
    (hh : l'.hl = l.hl ∨ l'.hl + 1 = l.hl) (h : avlUp l' v r = .ok (t, rot)) :
    (t.hl + 1 = 1 + max l.hl r.hl ↔
      l'.hl + 1 = l.hl ∧ (r.hl < l.hl ∨ (l.hl < r.hl ∧ ¬ SameLevels r))) ∧ (avlOk t ↔ avlOk l') := by
  by_cases hb : r.hl ≤ l'.hl + 1
  · rw [up_balanced v (by omega) hb] at h
    cases h
    refine ⟨?_, fun k => k.1, fun k => ⟨k, hr, rfl, by omega, hb⟩⟩
    simp only [avlNode, hl_node]
    constructor
    · intro k; exact ⟨by omega, .inl (by omega)⟩
    · rintro ⟨k1, k2 | ⟨k2, -⟩⟩ <;> omega
  · obtain ⟨t', u1, u2, u3, u4, -⟩ := up_right_heavy hl' hr hs (by omega)
    rw [h] at u1
    cases u1
    obtain ⟨e1, e2⟩ := right_heavy_iff hr hs (by omega) h
    refine ⟨?_, e2, u4⟩
    rw [← e1]
    constructor
    · intro k; exact ⟨by omega, .inr ⟨by omega, by omega⟩⟩
    · rintro ⟨k1, k2 | ⟨k2, k3⟩⟩ <;> omega

theorem up_right_exact {l r r' t : BTree (N × Nat)} {v : N} {rot : Bool} (hl : avlOk l) (hr' : hOk r')
    (hs : (l.keys ++ v :: r'.keys).Pairwise (· < ·)) (b1 : l.hl ≤ r.hl + 1) (b2 : r.hl ≤ l.hl + 1)
    (hh : r'.hl = r.hl ∨ r'.hl + 1 = r.hl) (h : avlUp l v r' = .ok (t, rot)) :
    (t.hl + 1 = 1 + max l.hl r.hl ↔
      r'.hl + 1 = r.hl ∧ (l.hl < r.hl ∨ (r.hl < l.hl ∧ ¬ SameLevels l))) ∧
    (avlOk t ↔ avlOk r' ∧ ¬ (r'.hl + 1 = r.hl ∧ r.hl < l.hl ∧ Tie l)) := by
  by_cases hb : l.hl ≤ r'.hl + 1
  · rw [up_balanced v hb (by omega)] at h
    cases h
    refine ⟨?_, fun k => ⟨k.2.1, by omega⟩, fun k => ⟨hl, k.1, rfl, hb, by omega⟩⟩
    simp only [avlNode, hl_node]
    constructor
    · intro k; exact ⟨by omega, .inl (by omega)⟩
    · rintro ⟨k1, k2 | ⟨k2, -⟩⟩ <;> omega
  · obtain ⟨t', u1, u2, u3, u4, -⟩ := up_left_heavy hl hr' hs (by omega)
    rw [h] at u1
    cases u1
    obtain ⟨e1, e2⟩ := left_heavy_iff hl hs (by omega) h
    refine ⟨?_, fun k => ⟨(e2 k).1, fun q => (e2 k).2 q.2.2⟩, fun k => u4 k.1 fun q => ?_⟩
    · rw [← e1]
      constructor
      · intro k; exact ⟨by omega, .inr ⟨by omega, by omega⟩⟩
      · rintro ⟨k1, k2 | ⟨k2, k3⟩⟩ <;> omega
    · exact k.2 ⟨by omega, by omega, (tie_iff hl.hOk).2 q⟩

/-! ## The way -/

/-- a tree after a removal along the way `p`, exactly -/
def RemExact (t : BTree (N × Nat)) (p : List Bool) (t' : BTree (N × Nat)) : Prop :=
  (t'.hl + 1 = t.hl ↔ LosesLevel t p) ∧ (avlOk t' ↔ ¬ Unbalances t p)

theorem remExact_left {l l' r t : BTree (N × Nat)} {w : N × Nat} {v : N} {p : List Bool} {rot : Bool}
    (ho : avlOk (.node l w r)) (hl' : hOk l') (hs : (l'.keys ++ v :: r.keys).Pairwise (· < ·))
    (hh : l'.hl = l.hl ∨ l'.hl + 1 = l.hl) (hr : RemExact l p l') (h : avlUp l' v r = .ok (t, rot)) :
    RemExact (.node l w r) (false :: p) t := by
  obtain ⟨o1, o2, o3, o4, o5⟩ := ho
  obtain ⟨e1, e2⟩ := up_left_exact hl' o2 hs o4 o5 hh h
  rw [RemExact, LosesLevel, Unbalances, hl_node, o3, e1, e2, hr.1, hr.2, o1.hOk.nlev, o2.hOk.nlev]
  exact ⟨Iff.rfl, Iff.rfl⟩

theorem remExact_right {l r r' t : BTree (N × Nat)} {w : N × Nat} {v : N} {p : List Bool} {rot : Bool}
    (ho : avlOk (.node l w r)) (hr' : hOk r') (hs : (l.keys ++ v :: r'.keys).Pairwise (· < ·))
    (hh : r'.hl = r.hl ∨ r'.hl + 1 = r.hl) (hr : RemExact r p r') (h : avlUp l v r' = .ok (t, rot)) :
    RemExact (.node l w r) (true :: p) t := by
  obtain ⟨o1, o2, o3, o4, o5⟩ := ho
  obtain ⟨e1, e2⟩ := up_right_exact o1 hr' hs o4 o5 hh h
  rw [RemExact, LosesLevel, Unbalances, hl_node, o3, e1, e2, hr.1, hr.2, o1.hOk.nlev, o2.hOk.nlev, not_or]
  exact ⟨Iff.rfl, Iff.rfl⟩

omit [LinearOrder N] in
theorem remExact_end {t t' : BTree (N × Nat)} (h : t'.hl + 1 = t.hl) (ho : avlOk t') : RemExact t [] t' := by
  refine ⟨⟨fun _ => ?_, fun _ => h⟩, ⟨fun _ => ?_, fun _ => ho⟩⟩
  · cases t <;> exact trivial
  · cases t <;> exact id

theorem avlTakeMin_exact : ∀ (t : BTree (N × Nat)), t ≠ .nil → t.keys.Pairwise (· < ·) → avlOk t →
    ∀ {m t' rot}, t.avlTakeMin = .ok (m, t', rot) → RemExact t (leftEdge t) t'
  | .nil, h, _, _, _, _, _, _ => absurd rfl h
  | .node .nil w r, _, _, ho, _, _, _, h => by
    obtain ⟨a, b, c⟩ := avlSink_right ho
    cases h
    exact remExact_end c b
  | .node (.node ll lv lr) w r, _, hs, ho, m, t, rot, h => by
    obtain ⟨s1, s2, s3, s4⟩ := sorted_node.1 hs
    obtain ⟨m', l', rot', e, k, h1, h2, h3, -⟩ := avlTakeMin_spec (.node ll lv lr) (by simp) s1 ho.1
    have hs' : (l'.keys ++ w.1 :: r.keys).Pairwise (· < ·) := by
      rw [BTree.keys_node, k] at hs
      exact (List.pairwise_cons.1 hs).2
    have hx := avlTakeMin_exact (.node ll lv lr) (by simp) s1 ho.1 e
    rw [BTree.avlTakeMin, e] at h
    simp only [bind, Except.bind] at h
    rw [avlLink_left h3 (fun x hx => s3 x (by rw [k]; exact List.mem_cons_of_mem _ hx))] at h
    cases hu : avlUp l' w.1 r with
    | error => rw [hu] at h; cases h
    | ok y =>
      rw [hu] at h
      cases h
      exact remExact_left ho h1 hs' h2 hx hu

theorem avlTakeMax_exact : ∀ (t : BTree (N × Nat)), t ≠ .nil → t.keys.Pairwise (· < ·) → avlOk t →
    ∀ {m t' rot}, t.avlTakeMax = .ok (m, t', rot) → RemExact t (rightEdge t) t'
  | .nil, h, _, _, _, _, _, _ => absurd rfl h
  | .node l w .nil, _, _, ho, _, _, _, h => by
    obtain ⟨a, b, c⟩ := avlSink_left ho
    rw [BTree.avlTakeMax] at h
    cases h
    rw [rightEdge]
    exact remExact_end c b
  | .node l w (.node rl rv rr), _, hs, ho, m, t, rot, h => by
    obtain ⟨s1, s2, s3, s4⟩ := sorted_node.1 hs
    obtain ⟨m', r', rot', e, k, h1, h2, h3, -⟩ := avlTakeMax_spec (.node rl rv rr) (by simp) s2 ho.2.1
    have hk : (BTree.node l w (.node rl rv rr)).keys = (l.keys ++ w.1 :: r'.keys) ++ [m'] := by
      rw [BTree.keys_node l w, k]; simp
    have hs' : (l.keys ++ w.1 :: r'.keys).Pairwise (· < ·) := by
      rw [hk] at hs
      exact (List.pairwise_append.1 hs).1
    have hx := avlTakeMax_exact (.node rl rv rr) (by simp) s2 ho.2.1 e
    rw [BTree.avlTakeMax, e] at h
    simp only [bind, Except.bind] at h
    rw [avlLink_right h3 (fun x hx => s4 x (by rw [k]; exact List.mem_append_left _ hx))] at h
    cases hu : avlUp l w.1 r' with
    | error => rw [hu] at h; cases h
    | ok y =>
      rw [hu] at h
      cases h
      exact remExact_right ho h1 hs' h2 hx hu

theorem avlRemoveRoot_exact (l : BTree (N × Nat)) (w r) (hs : (BTree.node l w r).keys.Pairwise (· < ·))
    (ho : avlOk (.node l w r)) {t rot} (h : (BTree.node l w r).avlRemoveRoot = .ok (t, rot)) :
    RemExact (.node l w r) (goneWay w.1 (.node l w r)) t := by
  obtain ⟨s1, s2, s3, s4⟩ := sorted_node.1 hs
  rw [goneWay, if_neg (lt_irrefl _), if_neg (lt_irrefl _)]
  cases r with
  | node rl rv rr =>
    obtain ⟨m, r', rot', e, k, h1, h2, h3, -⟩ := avlTakeMin_spec (.node rl rv rr) (by simp) s2 ho.2.1
    have hs' : (l.keys ++ m :: r'.keys).Pairwise (· < ·) := by
      rw [← k]
      rw [BTree.keys_node l w] at hs
      exact hs.sublist (List.Sublist.append_left (List.sublist_cons_self _ _) _)
    have hx := avlTakeMin_exact (.node rl rv rr) (by simp) s2 ho.2.1 e
    simp only [BTree.avlRemoveRoot, e, bind, Except.bind] at h
    rw [avlLink_right h3] at h
    · cases l <;> exact remExact_right ho h1 hs' h2 hx h
    · intro x hx
      rw [k, List.pairwise_cons] at s2
      exact s2.1 x hx
  | nil =>
    cases l with
    | nil =>
      simp only [BTree.avlRemoveRoot] at h
      cases h
      obtain ⟨-, -, o3, -⟩ := ho
      exact remExact_end (by simp only [hl_nil, hl_node] at *; omega) trivial
    | node ll lv lr =>
      obtain ⟨m, l', rot', e, k, h1, h2, h3, -⟩ := avlTakeMax_spec (.node ll lv lr) (by simp) s1 ho.1
      have hx := avlTakeMax_exact (.node ll lv lr) (by simp) s1 ho.1 e
      rw [k] at s1
      obtain ⟨p1, p2, p3⟩ := List.pairwise_append.1 s1
      have hs' : (l'.keys ++ m :: (BTree.nil : BTree (N × Nat)).keys).Pairwise (· < ·) := s1
      simp only [BTree.avlRemoveRoot, e, bind, Except.bind] at h
      rw [avlLink_left h3] at h
      · exact remExact_left ho h1 hs' h2 hx h
      · intro x hx
        exact p3 x hx m (by simp)

theorem avlRemove_exact (v : N) : ∀ (t : BTree (N × Nat)), t.keys.Pairwise (· < ·) → avlOk t →
    ∀ {t' rot}, t.avlRemove v = .ok (some (t', rot)) → RemExact t (goneWay v t) t'
  | .nil, _, _, _, _, h => by cases h
  | .node l w r, hs, ho, t, rot, h => by
    obtain ⟨s1, s2, s3, s4⟩ := sorted_node.1 hs
    rw [BTree.avlRemove] at h
    by_cases e : v = w.1
    · subst e
      rw [if_pos rfl] at h
      cases hx : (BTree.node l w r).avlRemoveRoot with
      | error => rw [hx] at h; cases h
      | ok y =>
        rw [hx] at h
        cases h
        exact avlRemoveRoot_exact l w r hs ho hx
    rw [if_neg e] at h
    by_cases e' : v < w.1
    · rw [if_pos e'] at h
      obtain ⟨i1, i2⟩ := avlRemove_spec v l s1 ho.1
      by_cases hv : v ∈ l.keys
      · obtain ⟨l', rot', A, B, a1, a2, a3, a4, a5, a6, -⟩ := i2 hv
        have hx := avlRemove_exact v l s1 ho.1 a1
        rw [a1] at h
        simp only [bind, Except.bind] at h
        have hsub : ∀ x ∈ l'.keys, x ∈ l.keys := by
          intro x hx
          rw [a2]; rw [a3] at hx
          rcases List.mem_append.1 hx with hx | hx
          · exact List.mem_append_left _ hx
          · exact List.mem_append_right _ (List.mem_cons_of_mem _ hx)
        have hs' : (l'.keys ++ w.1 :: r.keys).Pairwise (· < ·) := by
          rw [BTree.keys_node, a2] at hs
          rw [a3]
          exact hs.sublist ((List.Sublist.append_left (List.sublist_cons_self _ _) _).append_right _)
        rw [avlLink_left a6 (fun x hx => s3 x (hsub x hx))] at h
        cases hu : avlUp l' w.1 r with
        | error => rw [hu] at h; cases h
        | ok y =>
          rw [hu] at h
          cases h
          rw [goneWay, if_pos e']
          exact remExact_left ho a4 hs' a5 hx hu
      · rw [i1 hv] at h; cases h
    · rw [if_neg e'] at h
      have hlt : w.1 < v := lt_of_le_of_ne (not_lt.1 e') (Ne.symm e)
      obtain ⟨i1, i2⟩ := avlRemove_spec v r s2 ho.2.1
      by_cases hv : v ∈ r.keys
      · obtain ⟨r', rot', A, B, a1, a2, a3, a4, a5, a6, -⟩ := i2 hv
        have hx := avlRemove_exact v r s2 ho.2.1 a1
        rw [a1] at h
        simp only [bind, Except.bind] at h
        have hsub : ∀ x ∈ r'.keys, x ∈ r.keys := by
          intro x hx
          rw [a2]; rw [a3] at hx
          rcases List.mem_append.1 hx with hx | hx
          · exact List.mem_append_left _ hx
          · exact List.mem_append_right _ (List.mem_cons_of_mem _ hx)
        have hs' : (l.keys ++ w.1 :: r'.keys).Pairwise (· < ·) := by
          rw [BTree.keys_node, a2] at hs
          rw [a3]
          exact hs.sublist (List.Sublist.append_left (List.Sublist.cons_cons _
            (List.Sublist.append_left (List.sublist_cons_self _ _) _)) _)
        rw [avlLink_right a6 (fun x hx => s4 x (hsub x hx))] at h
        cases hu : avlUp l w.1 r' with
        | error => rw [hu] at h; cases h
        | ok y =>
          rw [hu] at h
          cases h
          rw [goneWay, if_neg e', if_pos hlt]
          exact remExact_right ho a4 hs' a5 hx hu
      · rw [i1 hv] at h; cases h

end Extra
