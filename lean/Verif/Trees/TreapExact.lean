import Verif.Trees.TreapProofs

/-!
# Exactly which removals from a treap raise

The specification, and helper lemmas.
-/

set_option linter.unusedSectionVars false

namespace Extra
variable {N P : Type} [LinearOrder N] [LinearOrder P]

/-! ## The specification -/

/-- `a` and `b` are the priorities of the last number of the left and the first number of the right
subtree of the node to be removed.  The node is rotated down past all nodes between them; the lower of the
two priorities (the left one if they are equal) is met last, when there is nothing on the other side, and is
then compared with `-1`. -/
def stuckAt (minusOne : P) : Option P → Option P → Prop
  | none, none => False
  | some a, none => a ≤ minusOne
  | none, some b => b < minusOne
  | some a, some b => if a ≤ b then a ≤ minusOne else b < minusOne

instance (m1 : P) (a b : Option P) : Decidable (stuckAt m1 a b) := by
  cases a <;> cases b <;> unfold stuckAt <;> infer_instance

/-- a neighbour in the map counts if its priority is lower than `p` -/
def below (p : P) : Option (N × P) → Option P
  | none => none
  | some x => if x.2 < p then some x.2 else none

/-- the removal of `v` from a treap that stands for the map `m` raises -/
def raisesIn (minusOne : P) (m : List (N × P)) (v : N) : Prop :=
  ∃ pre p post, m = pre ++ (v, p) :: post ∧
    stuckAt minusOne (below p pre.getLast?) (below p post.head?)

/-- the priorities given to or drawn by the inserts of a history -/
def priosOf : List (TreapOp N P) → List P
  | [] => []
  | .insert _ (.num p) :: ops => p :: priosOf ops
  | .insert _ (.none p) :: ops => p :: priosOf ops
  | _ :: ops => priosOf ops

/-! ## Lemmas -/

/-- the priority of the last number -/
def BTree.lastPrio (t : BTree (N × P)) : Option P := t.inorder.getLast?.map Prod.snd

/-- the priority of the first number -/
def BTree.firstPrio (t : BTree (N × P)) : Option P := t.inorder.head?.map Prod.snd

theorem lastPrio_node (l : BTree (N × P)) (w r) :
    (BTree.node l w r).lastPrio = some (r.lastPrio.getD w.2) := by
  simp only [BTree.lastPrio, BTree.inorder_node', List.getLast?_append, List.getLast?_cons]
  cases r.inorder.getLast? <;> simp

theorem firstPrio_node (l : BTree (N × P)) (w r) :
    (BTree.node l w r).firstPrio = some (l.firstPrio.getD w.2) := by
  simp only [BTree.firstPrio, BTree.inorder_node', List.head?_append]
  cases l.inorder.head? <;> simp

@[simp] theorem lastPrio_nil : (BTree.nil : BTree (N × P)).lastPrio = none := by simp [BTree.lastPrio]

@[simp] theorem firstPrio_nil : (BTree.nil : BTree (N × P)).firstPrio = none := by simp [BTree.firstPrio]

theorem lastPrio_le {t : BTree (N × P)} (h : heapI t) {q : P} (ht : topLe t q) {a : P}
    (ha : t.lastPrio = some a) : a ≤ q := by
  simp only [BTree.lastPrio, Option.map_eq_some_iff] at ha
  obtain ⟨x, hx, rfl⟩ := ha
  exact topLe_all t h q ht x (List.mem_of_getLast? hx)

theorem firstPrio_le {t : BTree (N × P)} (h : heapI t) {q : P} (ht : topLe t q) {a : P}
    (ha : t.firstPrio = some a) : a ≤ q := by
  simp only [BTree.firstPrio, Option.map_eq_some_iff] at ha
  obtain ⟨x, hx, rfl⟩ := ha
  exact topLe_all t h q ht x (List.mem_of_head? hx)

theorem treapDown_raises (m1 : P) (w : N × P) (n : Nat) : ∀ (l r : BTree (N × P)),
    l.inorder.length + r.inorder.length ≤ n → (BTree.node l w r).keys.Pairwise (· < ·) →
    heapI l → heapI r →
    (treapDown m1 w n l r = .error .attributeError ↔ stuckAt m1 l.lastPrio r.firstPrio) := by
  induction n with
  | zero =>
    intro l r hn _ _ _
    cases l with
    | node => simp at hn
    | nil =>
      cases r with
      | node => simp at hn
      | nil => simp [treapDown, stuckAt]
  | succ n ih =>
    intro l r hn hs hl hr
    obtain ⟨s1, s2, s3, s4⟩ := sorted_node.1 hs
    have step : ∀ (l' r' : BTree (N × P)) (f : BTree (N × P) → BTree (N × P)) (side : Bool) (u : N × P),
        (∀ x, treapDown m1 w n l' r' = .ok x → sameSide side x.2 u.1 = true) →
        ((do
          let (t, c) ← treapDown m1 w n l' r'
          if sameSide side c u.1 then pure (f t, u.1) else .error .unmodelled :
            Except Err (BTree (N × P) × N)) = .error .attributeError ↔
          treapDown m1 w n l' r' = .error .attributeError) := by
      intro l' r' f side u hx
      cases e : treapDown m1 w n l' r' with
      | error e => simp [bind, Except.bind]
      | ok x => simp [bind, Except.bind, hx x e, pure, Except.pure]
    cases l with
    | nil =>
      cases r with
      | nil => simp [treapDown, stuckAt]
      | node rl rv rr =>
        obtain ⟨k1, k2, k3, k4⟩ := hr
        obtain ⟨q1, q2, q3, q4⟩ := sorted_node.1 s2
        rw [treapDown_succ m1 w n _ _ (by simp), firstPrio_node, lastPrio_nil]
        by_cases hp : rv.2 < m1
        · rw [if_pos (by exact hp)]
          simp only [stuckAt, true_iff]
          cases hf : rl.firstPrio with
          | none => exact hp
          | some b => exact lt_of_le_of_lt (firstPrio_le k1 k3 hf) hp
        · rw [if_neg (by exact hp)]
          have hs' : (BTree.node .nil w rl).keys.Pairwise (· < ·) :=
            sorted_node.2 ⟨List.Pairwise.nil, q1, by simp, fun x hx => s4 x (by simp [hx])⟩
          refine (step .nil rl (fun t => .node t rv rr) true rv ?_).trans
            ((ih .nil rl (by simp at hn ⊢; omega) hs' trivial k1).trans ?_)
          · rintro ⟨t, c⟩ e
            obtain ⟨-, i2, -⟩ := treapDown_ok m1 w n _ _ _ _ e
            apply sameSide_left
            rcases i2 with rfl | h | h
            · exact s4 _ (by simp)
            · simp at h
            · exact q3 _ h
          · rw [lastPrio_nil]
            cases rl.firstPrio with
            | none => simp [stuckAt, hp]
            | some b => simp [stuckAt]
    | node ll lv lr =>
      obtain ⟨p1, p2, p3, p4⟩ := sorted_node.1 s1
      have hl' := hl
      obtain ⟨j1, j2, j3, j4⟩ := hl
      rw [treapDown_succ m1 w n _ _ (by simp)]
      by_cases hp : lv.2 > r.prio m1
      · rw [if_pos (by exact hp)]
        have hs' : (BTree.node lr w r).keys.Pairwise (· < ·) :=
          sorted_node.2 ⟨p2, s2, fun x hx => s3 x (by simp [hx]), s4⟩
        refine (step lr r (fun t => .node ll lv t) false lv ?_).trans
          ((ih lr r (by simp at hn ⊢; omega) hs' j2 hr).trans ?_)
        · rintro ⟨t, c⟩ e
          obtain ⟨-, i2, -⟩ := treapDown_ok m1 w n _ _ _ _ e
          have hlw : lv.1 < w.1 := s3 _ (by simp)
          apply sameSide_right
          rcases i2 with rfl | h | h
          · exact hlw
          · exact p4 _ h
          · exact hlw.trans (s4 _ h)
        · rw [lastPrio_node]
          cases hlr : lr.lastPrio with
          | some a => rfl
          | none =>
            cases r with
            | nil => simpa [stuckAt, BTree.prio] using hp
            | node rl rv rr =>
              obtain ⟨k1, k2, k3, k4⟩ := hr
              have hb : rl.firstPrio.getD rv.2 < lv.2 := by
                refine lt_of_le_of_lt ?_ hp
                cases hf : rl.firstPrio with
                | none => exact le_rfl
                | some b => exact firstPrio_le k1 k3 hf
              rw [firstPrio_node]
              simp [stuckAt, not_le.2 hb]
      · rw [if_neg (by exact hp)]
        have ha : ∀ {q : P}, lv.2 ≤ q → lr.lastPrio.getD lv.2 ≤ q := by
          intro q hq
          cases hf : lr.lastPrio with
          | none => exact hq
          | some b => exact (lastPrio_le j2 j4 hf).trans hq
        cases r with
        | nil =>
          rw [lastPrio_node, firstPrio_nil]
          simpa [stuckAt] using ha (show lv.2 ≤ m1 from not_lt.1 hp)
        | node rl rv rr =>
          obtain ⟨k1, k2, k3, k4⟩ := hr
          obtain ⟨q1, q2, q3, q4⟩ := sorted_node.1 s2
          have hs' : (BTree.node (.node ll lv lr) w rl).keys.Pairwise (· < ·) :=
            sorted_node.2 ⟨s1, q1, s3, fun x hx => s4 x (by simp [hx])⟩
          refine (step (.node ll lv lr) rl (fun t => .node t rv rr) true rv ?_).trans
            ((ih (.node ll lv lr) rl (by simp at hn ⊢; omega) hs' hl' k1).trans ?_)
          · rintro ⟨t, c⟩ e
            obtain ⟨-, i2, -⟩ := treapDown_ok m1 w n _ _ _ _ e
            have hwr : w.1 < rv.1 := s4 _ (by simp)
            apply sameSide_left
            rcases i2 with rfl | h | h
            · exact hwr
            · exact (s3 _ h).trans hwr
            · exact q3 _ h
          · rw [lastPrio_node, firstPrio_node]
            cases rl.firstPrio with
            | some b => rfl
            | none => simp [stuckAt, ha (show lv.2 ≤ rv.2 from not_lt.1 hp)]

/-- the node to be removed and what is around it -/
structure TreapAround (t : BTree (N × P)) (pre : List (N × P)) (l : BTree (N × P)) (w : N × P)
    (r : BTree (N × P)) (post : List (N × P)) : Prop where
  sub : ∃ p, t.sub p = .node l w r
  inorder : t.inorder = (pre ++ l.inorder) ++ w :: (r.inorder ++ post)
  heapL : heapI l
  heapR : heapI r
  topL : topLe l w.2
  topR : topLe r w.2
  before : ∀ x, pre.getLast? = some x → w.2 ≤ x.2
  after : ∀ x, post.head? = some x → w.2 ≤ x.2

theorem TreapAround.mem {t : BTree (N × P)} {pre l w r post} (h : TreapAround t pre l w r post) : w ∈ t.inorder := by
  rw [h.inorder]; simp

theorem treapRemove_raises (m1 : P) (v : N) (t : BTree (N × P)) (hs : t.keys.Pairwise (· < ·))
    (hh : heapI t) (hv : v ∈ t.keys) : ∃ pre l w r post, TreapAround t pre l w r post ∧ w.1 = v ∧
      (t.treapRemove m1 v = .error .attributeError ↔ stuckAt m1 l.lastPrio r.firstPrio) := by
  induction t with
  | nil => simp at hv
  | node l w r ihl ihr =>
    obtain ⟨s1, s2, s3, s4⟩ := sorted_node.1 hs
    obtain ⟨h1, h2, h3, h4⟩ := hh
    by_cases e1 : v = w.1
    · refine ⟨[], l, w, r, [], ⟨⟨[], rfl⟩, by simp, h1, h2, h3, h4, by simp, by simp⟩, e1.symm, ?_⟩
      rw [← treapDown_raises m1 w _ l r le_rfl hs h1 h2, BTree.treapRemove, if_pos e1]
      cases treapDown m1 w (l.inorder.length + r.inorder.length) l r with
      | error e => simp [bind, Except.bind]
      | ok x => simp [bind, Except.bind, pure, Except.pure]
    · by_cases e2 : v < w.1
      · have hnr : v ∉ r.keys := fun h => lt_asymm e2 (s4 v h)
        have hvl : v ∈ l.keys := by
          simp only [BTree.keys, BTree.inorder_node', List.map_append, List.map_cons, List.mem_append,
            List.mem_cons] at hv
          rcases hv with h | h | h
          · exact h
          · exact absurd h e1
          · exact absurd h hnr
        obtain ⟨pre, a, u, b, post, A, hu, hr⟩ := ihl s1 h1 hvl
        have htop := topLe_all l h1 w.2 h3 u A.mem
        obtain ⟨p, hp⟩ := A.sub
        refine ⟨pre, a, u, b, post ++ w :: r.inorder,
          ⟨⟨false :: p, by simpa [BTree.sub] using hp⟩, by simp [A.inorder], A.heapL, A.heapR, A.topL, A.topR,
            A.before, ?_⟩, hu, ?_⟩
        · intro x hx
          cases post with
          | nil => simp only [List.nil_append, List.head?_cons, Option.some.injEq] at hx; rw [← hx]; exact htop
          | cons y post => exact A.after x (by simpa using hx)
        · rw [← hr]
          rcases treapRemove_out m1 v l s1 with ⟨h, -⟩ | ⟨h, t', c, e, i, sd, -⟩ | ⟨h, e, -⟩
          · exact absurd hvl h
          · rw [BTree.treapRemove, if_neg e1, if_pos e2, e]
            cases c with
            | none => simp [bind, Except.bind, pure, Except.pure]
            | some c => simp [bind, Except.bind, pure, Except.pure, sameSide_left (s3 c (sd c rfl))]
          · rw [BTree.treapRemove, if_neg e1, if_pos e2, e]
            simp [bind, Except.bind]
      · have e3 : w.1 < v := lt_of_le_of_ne (not_lt.1 e2) (Ne.symm e1)
        have hnl : v ∉ l.keys := fun h => lt_asymm e3 (s3 v h)
        have hvr : v ∈ r.keys := by
          simp only [BTree.keys, BTree.inorder_node', List.map_append, List.map_cons, List.mem_append,
            List.mem_cons] at hv
          rcases hv with h | h | h
          · exact absurd h hnl
          · exact absurd h e1
          · exact h
        obtain ⟨pre, a, u, b, post, A, hu, hr⟩ := ihr s2 h2 hvr
        have htop := topLe_all r h2 w.2 h4 u A.mem
        obtain ⟨p, hp⟩ := A.sub
        refine ⟨l.inorder ++ w :: pre, a, u, b, post,
          ⟨⟨true :: p, by simpa [BTree.sub] using hp⟩, by simp [A.inorder], A.heapL, A.heapR, A.topL, A.topR,
            ?_, A.after⟩, hu, ?_⟩
        · intro x hx
          rw [List.getLast?_append, List.getLast?_cons] at hx
          cases hpre : pre.getLast? with
          | none => simp only [hpre, Option.getD_none, Option.some_or, Option.some.injEq] at hx; rw [← hx]; exact htop
          | some y =>
            simp only [hpre, Option.getD_some, Option.some_or, Option.some.injEq] at hx
            exact A.before x (by rw [hpre, hx])
        · rw [← hr]
          rcases treapRemove_out m1 v r s2 with ⟨h, -⟩ | ⟨h, t', c, e, i, sd, -⟩ | ⟨h, e, -⟩
          · exact absurd hvr h
          · rw [BTree.treapRemove, if_neg e1, if_neg e2, e]
            cases c with
            | none => simp [bind, Except.bind, pure, Except.pure]
            | some c => simp [bind, Except.bind, pure, Except.pure, sameSide_right (s4 c (sd c rfl))]
          · rw [BTree.treapRemove, if_neg e1, if_neg e2, e]
            simp [bind, Except.bind]

/-- with different priorities, the subtrees of a node hold the neighbours in the map with lower
priorities -/
theorem TreapAround.below {t : BTree (N × P)} {pre l w r post} (A : TreapAround t pre l w r post)
    (hn : (t.inorder.map Prod.snd).Nodup) :
    Extra.below w.2 (pre ++ l.inorder).getLast? = l.lastPrio ∧
    Extra.below w.2 (r.inorder ++ post).head? = r.firstPrio := by
  rw [A.inorder, List.map_append, List.map_cons] at hn
  have hn2 := List.nodup_append.1 hn
  constructor
  · rw [List.getLast?_append]
    cases e : l.inorder.getLast? with
    | none =>
      simp only [BTree.lastPrio, e, Option.none_or, Option.map_none]
      cases e2 : pre.getLast? with
      | none => rfl
      | some x => simp [Extra.below, A.before x e2]
    | some x =>
      have hx := List.mem_of_getLast? e
      have h1 : x.2 ≤ w.2 := topLe_all l A.heapL _ A.topL x hx
      have h2 : x.2 ≠ w.2 := hn2.2.2 x.2 (List.mem_map_of_mem (by simp [hx])) w.2 (by simp)
      simp [BTree.lastPrio, e, Extra.below, lt_of_le_of_ne h1 h2]
  · rw [List.head?_append]
    cases e : r.inorder.head? with
    | none =>
      simp only [BTree.firstPrio, e, Option.none_or, Option.map_none]
      cases e2 : post.head? with
      | none => rfl
      | some x => simp [Extra.below, A.after x e2]
    | some x =>
      have hx := List.mem_of_head? e
      have h1 : x.2 ≤ w.2 := topLe_all r A.heapR _ A.topR x hx
      have h2 : w.2 ≠ x.2 := by
        intro h
        have := (List.nodup_cons.1 hn2.2.1).1
        exact this (by rw [h]; exact List.mem_map_of_mem (by simp [hx]))
      simp [BTree.firstPrio, e, Extra.below, lt_of_le_of_ne h1 (Ne.symm h2)]

end Extra
