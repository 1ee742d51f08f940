import Verif.Trees.TreapSpec
import Verif.Trees.BstProofs

/-!
# Helper lemmas about `Treap`
-/

set_option linter.unusedSectionVars false
set_option linter.unusedSimpArgs false

namespace Extra
variable {N P : Type} [LinearOrder N] [LinearOrder P]

@[simp] theorem BTree.inorder_node' (l : BTree (N × P)) (w r) :
    (BTree.node l w r).inorder = l.inorder ++ w :: r.inorder := by simp [BTree.inorder]

@[simp] theorem BTree.inorder_nil' : (BTree.nil : BTree (N × P)).inorder = [] := by simp [BTree.inorder]

/-! ## The heap order by recursion -/

/-- the priority at the root is at most `q` -/
def topLe (t : BTree (N × P)) (q : P) : Prop := ∀ x, t.root? = some x → x.2 ≤ q

/-- the heap order by recursion -/
def heapI : BTree (N × P) → Prop
  | .nil => True
  | .node l w r => heapI l ∧ heapI r ∧ topLe l w.2 ∧ topLe r w.2

@[simp] theorem topLe_nil (q : P) : topLe (.nil : BTree (N × P)) q := by
  intro x h; simp [BTree.root?] at h

@[simp] theorem topLe_node (l : BTree (N × P)) (w r) (q : P) : topLe (.node l w r) q ↔ w.2 ≤ q := by
  simp [topLe, BTree.root?]

theorem heapI_iff (t : BTree (N × P)) : heapI t ↔ TreapOrdered t := by
  induction t with
  | nil =>
    simp only [heapI, true_iff]
    intro p b x y h
    cases p <;> simp [BTree.at, BTree.sub, BTree.root?] at h
  | node l w r ihl ihr =>
    rw [heapI, ihl, ihr]
    constructor
    · rintro ⟨h1, h2, h3, h4⟩ p b x y hx hy
      rcases p with _ | ⟨_ | _, p⟩
      · simp only [BTree.at, BTree.sub, BTree.root?, Option.some.injEq] at hx
        subst hx
        cases b
        · exact h3 y (by simpa [BTree.at, BTree.sub] using hy)
        · exact h4 y (by simpa [BTree.at, BTree.sub] using hy)
      · exact h1 p b x y (by simpa [BTree.at, BTree.sub] using hx) (by simpa [BTree.at, BTree.sub] using hy)
      · exact h2 p b x y (by simpa [BTree.at, BTree.sub] using hx) (by simpa [BTree.at, BTree.sub] using hy)
    · intro h
      refine ⟨fun p b x y hx hy => h (false :: p) b x y ?_ ?_, fun p b x y hx hy => h (true :: p) b x y ?_ ?_,
        fun x hx => h [] false w x rfl ?_, fun x hx => h [] true w x rfl ?_⟩ <;>
        simpa [BTree.at, BTree.sub] using ‹_›

/-! ## Insertion -/

theorem sameSide_left {c w : N} (h : c < w) : sameSide true c w = true := by simp [sameSide, h]

theorem sameSide_right {c w : N} (h : w < c) : sameSide false c w = true := by
  simp [sameSide, not_lt.2 h.le]

/-- what is known of the result of the insertion into a subtree -/
structure InsertOk (t t' : BTree (N × P)) (v : N × P) (on : Bool) : Prop where
  inorder : t'.inorder = (t.insertNode v).1.inorder
  goesOn : on = true → ∃ a n b, t' = .node a n b ∧ n.1 = v.1 ∧
    (heapI t → ∀ q, topLe t q → topLe a q ∧ topLe b q)
  stops : on = false → t'.root? = t.root?
  heap : heapI t → heapI t'

theorem treapInsert_ok (v : N × P) (t : BTree (N × P)) :
    ∃ t' on, t.treapInsert v = .ok (t', on, (t.insertNode v).2) ∧ InsertOk t t' v on := by
  induction t with
  | nil =>
    refine ⟨_, _, rfl, by simp [BTree.insertNode], fun _ => ⟨_, _, _, rfl, rfl, by simp⟩, by simp,
      by simp [heapI]⟩
  | node l w r ihl ihr =>
    rw [BTree.treapInsert, insertNode_node]
    split_ifs with e1 e2
    · refine ⟨_, _, rfl, by simp [insertNode_node, e1], fun _ => ⟨_, _, _, rfl, e1.symm, ?_⟩, by simp, id⟩
      rintro ⟨-, -, h3, h4⟩ q hq
      rw [topLe_node] at hq
      exact ⟨fun x hx => (h3 x hx).trans hq, fun x hx => (h4 x hx).trans hq⟩
    · obtain ⟨l', on, e, hl⟩ := ihl
      have hin : ∀ t' : BTree (N × P), t'.inorder = l'.inorder ++ w :: r.inorder →
          t'.inorder = ((BTree.node l w r).insertNode v).1.inorder := by
        intro t' ht'
        rw [ht', insertNode_node, if_neg e1, if_pos e2, BTree.inorder_node', hl.inorder]
      rw [e]
      cases on with
      | false =>
        refine ⟨.node l' w r, false, rfl, hin _ (by simp), by simp, fun _ => rfl, ?_⟩
        rintro ⟨h1, h2, h3, h4⟩
        exact ⟨hl.heap h1, h2, fun x hx => h3 x (by rw [← hl.stops rfl, hx]), h4⟩
      | true =>
        obtain ⟨a, n, b, rfl, hn, hq⟩ := hl.goesOn rfl
        by_cases hp : w.2 > n.2
        · refine ⟨.node (.node a n b) w r, false, ?_, hin _ (by simp), by simp, fun _ => rfl, ?_⟩
          · simp [treapUp, hn, sameSide_left e2, hp, bind, Except.bind, onSide, pure, Except.pure]
          · rintro ⟨h1, h2, h3, h4⟩
            exact ⟨hl.heap h1, h2, by simpa using hp.le, h4⟩
        · refine ⟨.node a n (.node b w r), true, ?_, hin _ (by simp), fun _ => ⟨_, _, _, rfl, hn, ?_⟩,
            by simp, ?_⟩
          · simp [treapUp, hn, sameSide_left e2, hp, bind, Except.bind, onSide, pure, Except.pure,
              BTree.rotateRight]
          · rintro ⟨h1, h2, h3, h4⟩ q hw
            rw [topLe_node] at hw
            exact ⟨(hq h1 q (fun x hx => (h3 x hx).trans hw)).1, by simpa using hw⟩
          · rintro ⟨h1, h2, h3, h4⟩
            obtain ⟨k1, k2, k3, k4⟩ := hl.heap h1
            exact ⟨k1, ⟨k2, h2, (hq h1 _ h3).2, h4⟩, k3, by simpa using hp⟩
    · obtain ⟨r', on, e, hr⟩ := ihr
      have e3 : w.1 < v.1 := lt_of_le_of_ne (not_lt.1 e2) (Ne.symm e1)
      have hin : ∀ t' : BTree (N × P), t'.inorder = l.inorder ++ w :: r'.inorder →
          t'.inorder = ((BTree.node l w r).insertNode v).1.inorder := by
        intro t' ht'
        rw [ht', insertNode_node, if_neg e1, if_neg e2, BTree.inorder_node', hr.inorder]
      rw [e]
      cases on with
      | false =>
        refine ⟨.node l w r', false, rfl, hin _ (by simp), by simp, fun _ => rfl, ?_⟩
        rintro ⟨h1, h2, h3, h4⟩
        exact ⟨h1, hr.heap h2, h3, fun x hx => h4 x (by rw [← hr.stops rfl, hx])⟩
      | true =>
        obtain ⟨a, n, b, rfl, hn, hq⟩ := hr.goesOn rfl
        by_cases hp : w.2 > n.2
        · refine ⟨.node l w (.node a n b), false, ?_, hin _ (by simp), by simp, fun _ => rfl, ?_⟩
          · simp [treapUp, hn, sameSide_right e3, hp, bind, Except.bind, onSide, pure, Except.pure]
          · rintro ⟨h1, h2, h3, h4⟩
            exact ⟨h1, hr.heap h2, h3, by simpa using hp.le⟩
        · refine ⟨.node (.node l w a) n b, true, ?_, hin _ (by simp), fun _ => ⟨_, _, _, rfl, hn, ?_⟩,
            by simp, ?_⟩
          · simp [treapUp, hn, sameSide_right e3, hp, bind, Except.bind, onSide, pure, Except.pure,
              BTree.rotateLeft]
          · rintro ⟨h1, h2, h3, h4⟩ q hw
            rw [topLe_node] at hw
            exact ⟨by simpa using hw, (hq h2 q (fun x hx => (h4 x hx).trans hw)).2⟩
          · rintro ⟨h1, h2, h3, h4⟩
            obtain ⟨k1, k2, k3, k4⟩ := hr.heap h2
            exact ⟨⟨h1, k1, h3, (hq h2 _ h4).1⟩, k2, by simpa using hp, k4⟩

/-! ## Insertion as an operation on lists -/

theorem mapInsert_left (v w : N × P) (h : v.1 < w.1) (L R : List (N × P)) :
    mapInsert v (L ++ w :: R) = mapInsert v L ++ w :: R := by
  induction L with
  | nil => simp [mapInsert, h]
  | cons x L ih => simp only [List.cons_append, mapInsert]; split_ifs <;> simp [ih]

theorem mapInsert_right (v w : N × P) (L R : List (N × P)) (hL : ∀ x ∈ L, x.1 < w.1) (h : w.1 < v.1) :
    mapInsert v (L ++ w :: R) = L ++ w :: mapInsert v R := by
  induction L with
  | nil => simp [mapInsert, h.not_gt, h.ne']
  | cons x L ih =>
    have hx : x.1 < v.1 := (hL x (by simp)).trans h
    simp [mapInsert, hx.not_gt, hx.ne', ih (fun y hy => hL y (by simp [hy]))]

theorem mapInsert_same (v w : N × P) (L R : List (N × P)) (hL : ∀ x ∈ L, x.1 < w.1) (h : v.1 = w.1) :
    mapInsert v (L ++ w :: R) = L ++ w :: R := by
  induction L with
  | nil => simp [mapInsert, h]
  | cons x L ih =>
    have hx : x.1 < v.1 := h ▸ hL x (by simp)
    simp [mapInsert, hx.not_gt, hx.ne', ih (fun y hy => hL y (by simp [hy]))]

theorem insertNode_inorder (v : N × P) (t : BTree (N × P)) (hs : t.keys.Pairwise (· < ·)) :
    (t.insertNode v).1.inorder = mapInsert v t.inorder := by
  induction t with
  | nil => simp [BTree.insertNode, mapInsert]
  | node l w r ihl ihr =>
    obtain ⟨s1, s2, s3, s4⟩ := sorted_node.1 hs
    have hL : ∀ x ∈ l.inorder, x.1 < w.1 := fun x hx => s3 _ (List.mem_map_of_mem hx)
    rw [insertNode_node]
    split_ifs with e1 e2
    · rw [BTree.inorder_node', mapInsert_same v w _ _ hL e1]
    · rw [BTree.inorder_node', ihl s1, BTree.inorder_node', mapInsert_left v w e2]
    · rw [BTree.inorder_node', ihr s2, BTree.inorder_node',
        mapInsert_right v w _ _ hL (lt_of_le_of_ne (not_lt.1 e2) (Ne.symm e1))]

/-! ## Removal -/

theorem treapDown_succ (m1 : P) (w : N × P) (n : Nat) (l r : BTree (N × P)) (h : ¬ (l = .nil ∧ r = .nil)) :
    treapDown m1 w (n + 1) l r = (if l.prio m1 > r.prio m1 then
      match l with
      | .nil => .error .attributeError
      | .node ll lv lr => do
        let (t, c) ← treapDown m1 w n lr r
        if sameSide false c lv.1 then pure (.node ll lv t, lv.1) else .error .unmodelled
    else
      match r with
      | .nil => .error .attributeError
      | .node rl rv rr => do
        let (t, c) ← treapDown m1 w n l rl
        if sameSide true c rv.1 then pure (.node t rv rr, rv.1) else .error .unmodelled) := by
  cases l
  · cases r
    · exact absurd ⟨rfl, rfl⟩ h
    · rfl
  · cases r <;> rfl

theorem treapDown_ok (m1 : P) (w : N × P) (n : Nat) : ∀ (l r t : BTree (N × P)) (c : N),
    treapDown m1 w n l r = .ok (t, c) →
    t.inorder = l.inorder ++ r.inorder ∧ (c = w.1 ∨ c ∈ l.keys ∨ c ∈ r.keys) ∧
      (heapI l → heapI r → heapI t ∧ ∀ q, topLe l q → topLe r q → topLe t q) := by
  induction n with
  | zero =>
    intro l r t c h
    cases l <;> cases r <;> simp [treapDown] at h
    obtain ⟨rfl, rfl⟩ := h
    simp [heapI]
  | succ n ih =>
    intro l r t c h
    by_cases hnil : l = .nil ∧ r = .nil
    · obtain ⟨rfl, rfl⟩ := hnil
      simp [treapDown] at h
      obtain ⟨rfl, rfl⟩ := h
      simp [heapI]
    · rw [treapDown_succ m1 w n l r hnil] at h
      rename' h => h'
      split_ifs at h' with hp
      · cases l with
        | nil => cases h'
        | node ll lv lr =>
          simp only [bind, Except.bind] at h'
          cases e : treapDown m1 w n lr r with
          | error => rw [e] at h'; cases h'
          | ok x =>
            obtain ⟨t0, c0⟩ := x
            rw [e] at h'
            simp only at h'
            split_ifs at h' with hss
            simp only [pure, Except.pure, Except.ok.injEq, Prod.mk.injEq] at h'
            obtain ⟨rfl, rfl⟩ := h'
            obtain ⟨i1, i2, i3⟩ := ih _ _ _ _ e
            refine ⟨by simp [i1], by simp, ?_⟩
            rintro ⟨h1, h2, h3, h4⟩ hr
            obtain ⟨k1, k2⟩ := i3 h2 hr
            refine ⟨⟨h1, k1, h3, k2 _ h4 ?_⟩, fun q hq _ => by simpa using hq⟩
            cases r with
            | nil => simp
            | node rl rv rr => simpa [BTree.prio] using le_of_lt hp
      · cases r with
        | nil => cases h'
        | node rl rv rr =>
          simp only [bind, Except.bind] at h'
          cases e : treapDown m1 w n l rl with
          | error => rw [e] at h'; cases h'
          | ok x =>
            obtain ⟨t0, c0⟩ := x
            rw [e] at h'
            simp only at h'
            split_ifs at h' with hss
            simp only [pure, Except.pure, Except.ok.injEq, Prod.mk.injEq] at h'
            obtain ⟨rfl, rfl⟩ := h'
            obtain ⟨i1, i2, i3⟩ := ih _ _ _ _ e
            refine ⟨by simp [i1], by simp, ?_⟩
            rintro hl ⟨h1, h2, h3, h4⟩
            obtain ⟨k1, k2⟩ := i3 hl h1
            refine ⟨⟨k1, h2, k2 _ ?_ h3, h4⟩, fun q _ hq => by simpa using hq⟩
            cases l with
            | nil => simp
            | node ll lv lr => simpa [BTree.prio] using hp

theorem treapDown_total (m1 : P) (w : N × P) (n : Nat) : ∀ (l r : BTree (N × P)),
    l.inorder.length + r.inorder.length ≤ n →
    (BTree.node l w r).keys.Pairwise (· < ·) →
    (∃ x, treapDown m1 w n l r = .ok x) ∨
      (treapDown m1 w n l r = .error .attributeError ∧ ∃ x ∈ l.inorder ++ r.inorder, x.2 ≤ m1) := by
  induction n with
  | zero =>
    intro l r hn _
    cases l with
    | node => simp at hn
    | nil =>
      cases r with
      | node => simp at hn
      | nil => exact .inl ⟨_, by simp [treapDown]; rfl⟩
  | succ n ih =>
    intro l r hn hs
    obtain ⟨s1, s2, s3, s4⟩ := sorted_node.1 hs
    cases l with
    | nil =>
      cases r with
      | nil => exact .inl ⟨_, by simp [treapDown]; rfl⟩
      | node rl rv rr =>
        rw [treapDown_succ m1 w n _ _ (by simp)]
        · by_cases hp : rv.2 < m1
          · rw [if_pos (by exact hp)]
            exact .inr ⟨rfl, rv, by simp, hp.le⟩
          · rw [if_neg (by exact hp)]
            obtain ⟨q1, q2, q3, q4⟩ := sorted_node.1 s2
            rcases ih .nil rl (by simp at hn ⊢; omega)
              (sorted_node.2 ⟨List.Pairwise.nil, q1, by simp, fun x hx => s4 x (by simp [hx])⟩) with ⟨x, e⟩ | ⟨e, x, hx, hx'⟩
            · obtain ⟨t, c⟩ := x
              obtain ⟨i1, i2, i3⟩ := treapDown_ok m1 w n _ _ _ _ e
              have hc : c < rv.1 := by
                rcases i2 with rfl | h | h
                · exact s4 _ (by simp)
                · simp at h
                · exact q3 _ h
              exact .inl ⟨(.node t rv rr, rv.1), by simp [e, bind, Except.bind, sameSide_left hc]; rfl⟩
            · exact .inr ⟨by simp [e, bind, Except.bind], x, by simp at hx ⊢; tauto, hx'⟩
    | node ll lv lr =>
      obtain ⟨p1, p2, p3, p4⟩ := sorted_node.1 s1
      rw [treapDown_succ m1 w n _ _ (by simp)]
      · by_cases hp : lv.2 > r.prio m1
        · rw [if_pos (by exact hp)]
          rcases ih lr r (by simp at hn ⊢; omega)
              (sorted_node.2 ⟨p2, s2, fun x hx => s3 x (by simp [hx]), s4⟩) with ⟨x, e⟩ | ⟨e, x, hx, hx'⟩
          · obtain ⟨t, c⟩ := x
            obtain ⟨i1, i2, i3⟩ := treapDown_ok m1 w n _ _ _ _ e
            have hc : lv.1 < c := by
              have hlw : lv.1 < w.1 := s3 _ (by simp)
              rcases i2 with rfl | h | h
              · exact hlw
              · exact p4 _ h
              · exact hlw.trans (s4 _ h)
            exact .inl ⟨(.node ll lv t, lv.1), by simp [e, bind, Except.bind, sameSide_right hc]; rfl⟩
          · exact .inr ⟨by simp [e, bind, Except.bind], x, by simp at hx ⊢; tauto, hx'⟩
        · cases r with
          | nil =>
            rw [if_neg (by exact hp)]
            exact .inr ⟨rfl, lv, by simp, not_lt.1 hp⟩
          | node rl rv rr =>
            obtain ⟨q1, q2, q3, q4⟩ := sorted_node.1 s2
            rw [if_neg (by exact hp)]
            rcases ih (.node ll lv lr) rl (by simp at hn ⊢; omega)
                (sorted_node.2 ⟨s1, q1, s3, fun x hx => s4 x (by simp [hx])⟩) with ⟨x, e⟩ | ⟨e, x, hx, hx'⟩
            · obtain ⟨t, c⟩ := x
              obtain ⟨i1, i2, i3⟩ := treapDown_ok m1 w n _ _ _ _ e
              have hc : c < rv.1 := by
                have hwr : w.1 < rv.1 := s4 _ (by simp)
                rcases i2 with rfl | h | h
                · exact hwr
                · exact (s3 _ h).trans hwr
                · exact q3 _ h
              exact .inl ⟨(.node t rv rr, rv.1), by simp [e, bind, Except.bind, sameSide_left hc]; rfl⟩
            · exact .inr ⟨by simp [e, bind, Except.bind], x, by simp at hx ⊢; tauto, hx'⟩

/-- what `remove` does to a subtree: the value is not held; or it is taken out; or the removal raises
`AttributeError`, and then there is a priority of at most `-1` -/
inductive RemoveOut (m1 : P) (v : N) (t : BTree (N × P)) : Prop
  | missing (h : v ∉ t.keys) (e : t.treapRemove m1 v = .ok none)
  | gone (h : v ∈ t.keys) (t' : BTree (N × P)) (c : Option N)
      (e : t.treapRemove m1 v = .ok (some (t', c)))
      (inorder : t'.inorder = t.inorder.filter (fun w => w.1 ≠ v))
      (side : ∀ x, c = some x → x ∈ t.keys)
      (heap : heapI t → heapI t' ∧ ∀ q, topLe t q → topLe t' q)
  | raises (h : v ∈ t.keys) (e : t.treapRemove m1 v = .error .attributeError)
      (low : ∃ x ∈ t.inorder, x.2 ≤ m1)

private theorem filter_all {L : List (N × P)} {v : N} (h : v ∉ L.map Prod.fst) :
    L.filter (fun w => w.1 ≠ v) = L := by
  rw [List.filter_eq_self]
  intro x hx
  simp only [ne_eq, decide_not, Bool.not_eq_true', decide_eq_false_iff_not]
  rintro rfl
  exact h (List.mem_map_of_mem hx)

theorem treapRemove_out (m1 : P) (v : N) (t : BTree (N × P)) (hs : t.keys.Pairwise (· < ·)) :
    RemoveOut m1 v t := by
  induction t with
  | nil => exact .missing (by simp) rfl
  | node l w r ihl ihr =>
    obtain ⟨s1, s2, s3, s4⟩ := sorted_node.1 hs
    have hlk : l.inorder.map Prod.fst = l.keys := rfl
    have hrk : r.inorder.map Prod.fst = r.keys := rfl
    by_cases e1 : v = w.1
    · have hnl : v ∉ l.keys := fun h => lt_irrefl _ (e1 ▸ s3 v h)
      have hnr : v ∉ r.keys := fun h => lt_irrefl _ (e1 ▸ s4 v h)
      rcases treapDown_total m1 w _ l r le_rfl hs with ⟨⟨t, c⟩, e⟩ | ⟨e, x, hx, hx'⟩
      · obtain ⟨i1, i2, i3⟩ := treapDown_ok m1 w _ _ _ _ _ e
        refine .gone (by simp [e1]) t (some c) (by
          rw [BTree.treapRemove, if_pos e1, e]; rfl) ?_ ?_ ?_
        · rw [i1, BTree.inorder_node', List.filter_append, List.filter_cons_of_neg (by simp [e1]),
            filter_all hnl, filter_all hnr]
        · rintro x hx
          cases hx
          rcases i2 with rfl | h | h <;> simp [*]
        · rintro ⟨h1, h2, h3, h4⟩
          obtain ⟨k1, k2⟩ := i3 h1 h2
          refine ⟨k1, fun q hq => k2 q ?_ ?_⟩
          · exact fun x hx => (h3 x hx).trans (by simpa using hq)
          · exact fun x hx => (h4 x hx).trans (by simpa using hq)
      · exact .raises (by simp [e1]) (by rw [BTree.treapRemove, if_pos e1, e]; rfl) ⟨x, by simp at hx ⊢; tauto, hx'⟩
    · by_cases e2 : v < w.1
      · have hnr : v ∉ r.keys := fun h => lt_asymm e2 (s4 v h)
        rcases ihl s1 with ⟨h, e⟩ | ⟨h, t', c, e, i, sd, hp⟩ | ⟨h, e, low⟩
        · refine .missing (by simp [h, hnr, e1]) ?_
          rw [BTree.treapRemove, if_neg e1, if_pos e2, e]; rfl
        · refine .gone (by simp [h]) (.node t' w r) none ?_ ?_ (by simp) ?_
          · rw [BTree.treapRemove, if_neg e1, if_pos e2, e]
            cases c with
            | none => rfl
            | some c => simp [bind, Except.bind, sameSide_left (s3 c (sd c rfl))]; rfl
          · rw [BTree.inorder_node', BTree.inorder_node', List.filter_append,
              List.filter_cons_of_pos (by simpa using Ne.symm e1), filter_all hnr, i]
          · rintro ⟨h1, h2, h3, h4⟩
            exact ⟨⟨(hp h1).1, h2, (hp h1).2 _ h3, h4⟩, fun q hq => by simpa using hq⟩
        · refine .raises (by simp [h]) ?_ ?_
          · rw [BTree.treapRemove, if_neg e1, if_pos e2, e]; rfl
          · obtain ⟨x, hx, hx'⟩ := low
            exact ⟨x, by simp [hx], hx'⟩
      · have e3 : w.1 < v := lt_of_le_of_ne (not_lt.1 e2) (Ne.symm e1)
        have hnl : v ∉ l.keys := fun h => lt_asymm e3 (s3 v h)
        rcases ihr s2 with ⟨h, e⟩ | ⟨h, t', c, e, i, sd, hp⟩ | ⟨h, e, low⟩
        · refine .missing (by simp [h, hnl, e1]) ?_
          rw [BTree.treapRemove, if_neg e1, if_neg e2, e]; rfl
        · refine .gone (by simp [h]) (.node l w t') none ?_ ?_ (by simp) ?_
          · rw [BTree.treapRemove, if_neg e1, if_neg e2, e]
            cases c with
            | none => rfl
            | some c => simp [bind, Except.bind, sameSide_right (s4 c (sd c rfl))]; rfl
          · rw [BTree.inorder_node', BTree.inorder_node', List.filter_append,
              List.filter_cons_of_pos (by simpa using Ne.symm e1), filter_all hnl, i]
          · rintro ⟨h1, h2, h3, h4⟩
            exact ⟨⟨h1, (hp h2).1, h3, (hp h2).2 _ h4⟩, fun q hq => by simpa using hq⟩
        · refine .raises (by simp [h]) ?_ ?_
          · rw [BTree.treapRemove, if_neg e1, if_neg e2, e]; rfl
          · obtain ⟨x, hx, hx'⟩ := low
            exact ⟨x, by simp [hx], hx'⟩

/-! ## The canonical shape -/

theorem topLe_all (t : BTree (N × P)) (h : heapI t) (q : P) (ht : topLe t q) : ∀ x ∈ t.inorder, x.2 ≤ q := by
  induction t generalizing q with
  | nil => simp
  | node l w r ihl ihr =>
    obtain ⟨h1, h2, h3, h4⟩ := h
    rw [topLe_node] at ht
    intro x hx
    rw [BTree.inorder_node', List.mem_append, List.mem_cons] at hx
    rcases hx with hx | rfl | hx
    · exact (ihl h1 _ h3 x hx).trans ht
    · exact ht
    · exact (ihr h2 _ h4 x hx).trans ht

private theorem split_unique {L L' R R' : List (N × P)} {w w' : N × P}
    (h : L ++ w :: R = L' ++ w' :: R') (hn : (L ++ w :: R).Pairwise (fun x y => x.2 ≠ y.2))
    (hw : ∀ x ∈ L ++ w :: R, x.2 ≤ w.2) (hw' : ∀ x ∈ L' ++ w' :: R', x.2 ≤ w'.2) :
    L = L' ∧ w = w' ∧ R = R' := by
  have e : w.2 = w'.2 := le_antisymm (hw' w (by rw [← h]; simp)) (hw w' (by rw [h]; simp))
  induction L generalizing L' with
  | nil =>
    cases L' with
    | nil => simpa using h
    | cons x L' =>
      simp only [List.nil_append, List.cons_append, List.cons.injEq] at h
      obtain ⟨rfl, rfl⟩ := h
      simp only [List.nil_append, List.pairwise_cons] at hn
      exact absurd e (hn.1 w' (by simp))
  | cons y L ih =>
    cases L' with
    | nil =>
      simp only [List.nil_append, List.cons_append, List.cons.injEq] at h
      obtain ⟨rfl, rfl⟩ := h
      simp only [List.cons_append, List.pairwise_cons] at hn
      exact absurd e.symm (hn.1 w (by simp))
    | cons x L' =>
      simp only [List.cons_append, List.cons.injEq] at h
      obtain ⟨rfl, h⟩ := h
      obtain ⟨rfl, rfl, rfl⟩ := ih h (List.pairwise_cons.1 hn).2 (fun x hx => hw x (by simp at hx ⊢; tauto))
        (fun x hx => hw' x (by simp at hx ⊢; tauto))
      exact ⟨rfl, rfl, rfl⟩

theorem treap_unique (t t' : BTree (N × P)) (h : heapI t) (h' : heapI t')
    (hi : t.inorder = t'.inorder) (hn : t.inorder.Pairwise (fun x y => x.2 ≠ y.2)) : t = t' := by
  induction t generalizing t' with
  | nil =>
    cases t' with
    | nil => rfl
    | node => simp at hi
  | node l w r ihl ihr =>
    cases t' with
    | nil => simp at hi
    | node l' w' r' =>
      have k := topLe_all _ h w.2 (by simp)
      have k' := topLe_all _ h' w'.2 (by simp)
      simp only [BTree.inorder_node'] at hi hn k k'
      obtain ⟨e1, rfl, e3⟩ := split_unique hi hn k k'
      rw [List.pairwise_append, List.pairwise_cons] at hn
      rw [ihl l' h.1 h'.1 e1 hn.1, ihr r' h.2.1 h'.2.1 e3 hn.2.1.2]

/-! ## Minimum and maximum -/

theorem minNode_head (t : BTree (N × P)) : t.minNode = t.inorder.head? := by
  induction t with
  | nil => rfl
  | node l w r ihl _ =>
    cases l with
    | nil => rfl
    | node a b c => rw [BTree.minNode, ihl]; simp

theorem maxNode_last (t : BTree (N × P)) : t.maxNode = t.inorder.getLast? := by
  induction t with
  | nil => rfl
  | node l w r _ ihr =>
    cases r with
    | nil => simp [BTree.maxNode]
    | node a b c => rw [BTree.maxNode, ihr]; simp [List.getLast?_append, List.getLast?_cons]

end Extra
