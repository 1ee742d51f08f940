import Verif.Trees.PtrTreap
import Verif.Trees.PtrAvlCalls
import Verif.Trees.TreapProofs

/-!
# `Treap` on node objects: helper lemmas
-/

set_option linter.unusedSimpArgs false
set_option linter.unusedSectionVars false

namespace Extra
variable {N P : Type} [LinearOrder N] [LinearOrder P]

/-! ## Insertion -/

/-- the loop of `insert` of the value model, from a subtree up the nodes above it -/
def treapClimb : BTree (N × P) → Bool → List (Above N P) → Except Err (BTree (N × P) × Bool)
  | t, on, [] => .ok (t, on)
  | t, on, f :: fs => do
    let (t', on') ← treapUp f.left t on f.w f.other
    treapClimb t' on' fs

theorem treapClimb_append (t : BTree (N × P)) (on : Bool) (fs gs : List (Above N P)) :
    treapClimb t on (fs ++ gs) = (treapClimb t on fs).bind fun x => treapClimb x.1 x.2 gs := by
  induction fs generalizing t on with
  | nil => rfl
  | cons f fs ih =>
    simp only [List.cons_append, treapClimb, bind, Except.bind]
    cases treapUp f.left t on f.w f.other with
    | error y => rfl
    | ok x => simp only [ih]; rfl

theorem treapClimb_snoc {t T1 : BTree (N × P)} {on on1 : Bool} {fs : List (Above N P)} {f : Above N P}
    {x : BTree (N × P) × Bool}
    (h : treapClimb t on fs = .ok (T1, on1)) (h1 : treapUp f.left T1 on1 f.w f.other = .ok x) :
    treapClimb t on (fs ++ [f]) = .ok x := by
  rw [treapClimb_append, h]
  simp only [Except.bind, treapClimb, h1, bind]

theorem treapClimb_stopped (t : BTree (N × P)) (fs : List (Above N P)) :
    treapClimb t false fs = .ok (plug t fs, false) := by
  induction fs generalizing t with
  | nil => rfl
  | cons f fs ih =>
    simp only [treapClimb, treapUp, Bool.false_eq_true, if_false, bind, Except.bind, ih, plug]
    rfl

/-- `insert` of the value model is a climb -/
theorem treapInsert_climb (v : N × P) (t : BTree (N × P)) {T : BTree (N × P)} {on new : Bool}
    (h : t.treapInsert v = .ok (T, on, new)) :
    (new = true ↔ t.walk (t.insertPath v.1) = .nil) ∧
    treapClimb (if new then .node .nil v .nil else t.walk (t.insertPath v.1)) true (t.above (t.insertPath v.1)) =
      .ok (T, on) := by
  induction t generalizing T on with
  | nil =>
    simp only [BTree.treapInsert, Except.ok.injEq, Prod.mk.injEq] at h
    obtain ⟨rfl, rfl, rfl⟩ := h
    exact ⟨by simp [BTree.insertPath, BTree.walk], rfl⟩
  | node l w r ihl ihr =>
    simp only [BTree.treapInsert] at h
    split_ifs at h with h1 h2
    · simp only [Except.ok.injEq, Prod.mk.injEq] at h
      obtain ⟨rfl, rfl, rfl⟩ := h
      simp [BTree.insertPath, h1, BTree.walk, BTree.above, treapClimb]
    · simp only [bind, Except.bind] at h
      cases hl : l.treapInsert v with
      | error y => rw [hl] at h; cases h
      | ok x =>
        obtain ⟨l', on1, new1⟩ := x
        rw [hl] at h
        simp only at h
        cases hu : treapUp true l' on1 w r with
        | error y => rw [hu] at h; cases h
        | ok y =>
          rw [hu] at h
          simp only [pure, Except.pure, Except.ok.injEq, Prod.mk.injEq] at h
          obtain ⟨rfl, rfl, rfl⟩ := h
          obtain ⟨i1, i2⟩ := ihl hl
          simp only [BTree.insertPath, if_neg h1, if_pos h2, BTree.walk, BTree.above]
          exact ⟨i1, treapClimb_snoc i2 hu⟩
    · simp only [bind, Except.bind] at h
      cases hl : r.treapInsert v with
      | error y => rw [hl] at h; cases h
      | ok x =>
        obtain ⟨l', on1, new1⟩ := x
        rw [hl] at h
        simp only at h
        cases hu : treapUp false l' on1 w l with
        | error y => rw [hu] at h; cases h
        | ok y =>
          rw [hu] at h
          simp only [pure, Except.pure, Except.ok.injEq, Prod.mk.injEq] at h
          obtain ⟨rfl, rfl, rfl⟩ := h
          obtain ⟨i1, i2⟩ := ihr hl
          simp only [BTree.insertPath, if_neg h1, if_neg h2, BTree.walk, BTree.above]
          exact ⟨i1, treapClimb_snoc i2 hu⟩

theorem forget_plug {X : Type} (t : ATree N X) (fs : List (AFrame N X)) :
    (plug t fs).forget = plug t.forget (forgetAll fs) := by
  induction fs generalizing t with
  | nil => rfl
  | cons f fs ih =>
    obtain ⟨d, w, o⟩ := f
    cases d
    · exact ih _
    · exact ih _

theorem attached_plain' {X : Type} (t : ATree N X) (fs : List (AFrame N X)) : attached (plainClass X) t fs = fs :=
  attached_plain t fs

section
variable {s : PTree N P} {p : Option Addr} {fs : List (AFrame N P)}

theorem pm_priority {l r : ATree N P} {w : N × (P × Addr)} (h : PRep s.node p (.node l w r)) :
    pPriority (some w.2.2) s = (.ok w.2.1, s) := (pm_bind_ok (pm_node h.1)).trans rfl

/-- a rotation to the right in a subtree -/
theorem ZRep.rotateRight {A B D : ATree N P} {v w : N × (P × Addr)} {hole : Option Addr}
    (Z : ZRep s (.node (.node A v B) w D) fs hole) :
    ∃ nd', pRotateRight (plainClass P) (some w.2.2) s = (.ok (some v.2.2), s.put nd') ∧
      ZRep (s.put nd') (.node A v (.node B w D)) fs hole := by
  obtain ⟨nd', e, R, F⟩ := pm_rotateRight (C := plainClass P) Z.rep (List.nodup_append.mp Z.nodup).1
  refine ⟨nd', e, Z.change R (List.Perm.subperm ?_) F⟩
  rw [List.perm_iff_count]
  intro x
  simp only [relinked_plain, BTree.addrs, List.count_cons, List.count_append]; omega

/-- a rotation to the left in a subtree -/
theorem ZRep.rotateLeft {A B D : ATree N P} {v w : N × (P × Addr)} {hole : Option Addr}
    (Z : ZRep s (.node A v (.node B w D)) fs hole) :
    ∃ nd', pRotateLeft (plainClass P) (some v.2.2) s = (.ok (some w.2.2), s.put nd') ∧
      ZRep (s.put nd') (.node (.node A v B) w D) fs hole := by
  obtain ⟨nd', e, R, F⟩ := pm_rotateLeft (C := plainClass P) Z.rep (List.nodup_append.mp Z.nodup).1
  refine ⟨nd', e, Z.change R (List.Perm.subperm ?_) F⟩
  rw [List.perm_iff_count]
  intro x
  simp only [relinked_plain, BTree.addrs, List.count_cons, List.count_append]; omega

end

theorem treapUp_on {d : Bool} {c o : BTree (N × P)} {w : N × P} {x : BTree (N × P) × Bool}
    (h : treapUp d c true w o = .ok x) : ∃ a n b, c = .node a n b ∧ sameSide d n.1 w.1 = true ∧
      ((w.2 > n.2 ∧ x = (onSide d c w o, false)) ∨ (¬ w.2 > n.2 ∧
        x = (if d then .node a n (.node b w o) else .node (.node o w a) n b, true))) := by
  unfold treapUp at h
  rw [if_pos rfl] at h
  cases c with
  | nil => cases h
  | node a n b =>
    simp only at h
    refine ⟨a, n, b, rfl, ?_⟩
    by_cases h1 : sameSide d n.1 w.1 = false
    · rw [if_pos h1] at h; cases h
    · rw [if_neg h1] at h
      refine ⟨by simpa using h1, ?_⟩
      by_cases h2 : w.2 > n.2
      · rw [if_pos h2] at h; cases h; exact .inl ⟨h2, rfl⟩
      · rw [if_neg h2] at h
        refine .inr ⟨h2, ?_⟩
        cases d <;> simp [onSide, BTree.rotateRight, BTree.rotateLeft, bind, Except.bind, pure, Except.pure] at h <;>
          exact h.symm

theorem pm_treapUp : ∀ (fs : List (AFrame N P)) {s : PTree N P} {a b : ATree N P} {n : N × (P × Addr)}
    {T' : BTree (N × P)} {on' : Bool}, ZRep s (.node a n b) fs (some n.2.2) →
    treapClimb (BTree.node a n b).forget true (forgetAll fs) = .ok (T', on') →
    ∀ fuel, fs.length < fuel →
    ∃ s' U, pTreapUp fuel (some n.2.2) (ctxPtr fs) s = (.ok (), s') ∧ ZRep s' U [] U.ptr ∧ U.forget = T' ∧
      s'.length = s.length ∧ s'.warned = s.warned ∧ s'.next = s.next
  | [], s, a, b, n, T', on', Z, e, fuel, hf => by
    obtain ⟨k, rfl⟩ : ∃ k, fuel = k + 1 := ⟨fuel - 1, by omega⟩
    cases e
    exact ⟨s, _, rfl, Z, rfl, rfl, rfl, rfl⟩
  | f :: fs, s, a, b, n, T', on', Z, e, fuel, hf => by
    obtain ⟨k, rfl⟩ : ∃ k, fuel = k + 1 := ⟨fuel - 1, by omega⟩
    simp only [List.length_cons] at hf
    simp only [forgetAll, List.map_cons, treapClimb, bind, Except.bind] at e
    split at e
    · cases e
    next x hx =>
      obtain ⟨a', n', b', e1, e2, e3⟩ := treapUp_on hx
      have e1' : a' = a.forget ∧ n' = (n.1, n.2.1) ∧ b' = b.forget := by
        simp only [BTree.forget, mapExt_node, BTree.node.injEq] at e1
        exact ⟨e1.1.symm, e1.2.1.symm, e1.2.2.symm⟩
      obtain ⟨rfl, rfl, rfl⟩ := e1'
      have hZ := Z.up
      have hside : sideOk f n.1 = true := e2
      have hfnode := Z.ctx.1
      have start : ∀ X, (if f.w.2.1 > n.2.1 then (Pure.pure () : PM N P Unit) else
            (if f.left then pRotateRight (plainClass P) (some f.w.2.2)
              else pRotateLeft (plainClass P) (some f.w.2.2)) >>= fun top =>
            pAttach (plainClass P) (ctxPtr fs) top >>= fun _ =>
            pTreapUp k top (ctxPtr fs)) s = X → pTreapUp (k + 1) (some n.2.2) (ctxPtr (f :: fs)) s = X := by
        rintro X rfl
        simp only [ctxPtr, pTreapUp, Option.isNone_some, Bool.false_eq_true, if_false]
        refine (pm_bind_ok (pm_parent hfnode)).trans <| (pm_bind_ok (a := f.w.2.1) ((pm_bind_ok (pm_node hfnode)).trans rfl)).trans <|
          (pm_bind_ok (pm_priority Z.rep)).trans ?_
        by_cases hp : f.w.2.1 > n.2.1
        · rw [if_pos hp, if_pos hp]
        · rw [if_neg hp, if_neg hp]
          refine (pm_bind_ok (pm_isLeftChild Z.rep.1 rfl hfnode)).trans ?_
          have : decide (f.w.1 > n.1) = f.left := by simpa [sideOk] using hside
          simp only [this]
          cases f.left <;> rfl
      rcases e3 with ⟨hp, rfl⟩ | ⟨hp, rfl⟩
      · replace hp : f.w.2.1 > n.2.1 := hp
        rw [treapClimb_stopped] at e
        cases e
        refine ⟨s, plug (.node a n b) (f :: fs), start _ ?_, Z.plug, ?_, rfl, rfl, rfl⟩
        · rw [if_pos hp]; rfl
        · rw [forget_plug]; rfl
      · replace hp : ¬ f.w.2.1 > n.2.1 := hp
        -- the child after the rotation, with the node number `n` at its root
        obtain ⟨nd', A, B, r1, Z1, r2⟩ : ∃ nd' A B,
            (if f.left then pRotateRight (plainClass P) (some f.w.2.2)
              else pRotateLeft (plainClass P) (some f.w.2.2)) s = (.ok (some n.2.2), s.put nd') ∧
            ZRep (s.put nd') (.node A n B) fs (some f.w.2.2) ∧
            (BTree.node A n B).forget = (if f.left then .node a.forget (n.1, n.2.1) (.node b.forget (f.w.1, f.w.2.1) f.other.forget)
              else .node (.node f.other.forget (f.w.1, f.w.2.1) a.forget) (n.1, n.2.1) b.forget) := by
          obtain ⟨d, w, o⟩ := f
          cases d with
          | true =>
            obtain ⟨nd', r1, r2⟩ := ZRep.rotateRight hZ
            exact ⟨nd', _, _, r1, r2, rfl⟩
          | false =>
            obtain ⟨nd', r1, r2⟩ := ZRep.rotateLeft hZ
            exact ⟨nd', _, _, r1, r2, rfl⟩
        have hsides : sidesOk fs n.1 = true := by
          cases fs with
          | nil => rfl
          | cons f2 fs2 =>
            simp only [List.map_cons, treapClimb, bind, Except.bind] at e
            split at e
            · cases e
            next y hy =>
              obtain ⟨a2, n2, b2, k1, k2, -⟩ := treapUp_on hy
              have : n2 = (n.1, n.2.1) := by
                cases hd : f.left with
                | true =>
                  have k := k1
                  rw [show (Above.mapExt Prod.fst f).left = f.left from rfl, hd] at k
                  simp only [if_true, BTree.node.injEq] at k
                  exact k.2.1.symm
                | false =>
                  have k := k1
                  rw [show (Above.mapExt Prod.fst f).left = f.left from rfl, hd] at k
                  simp only [Bool.false_eq_true, if_false, BTree.node.injEq] at k
                  exact k.2.1.symm
              rw [this] at k2
              exact k2
        obtain ⟨s2, c1, Z2, c2, c3, c4⟩ := pm_attach (C := plainClass P) Z1 hsides
        rw [attached_plain'] at Z2
        have e' : treapClimb (BTree.node A n B).forget true (forgetAll fs) = .ok (T', on') := by
          rw [r2]; exact e
        obtain ⟨s3, U, a1, a2, a3, a4, a5, a6⟩ := pm_treapUp fs Z2 e' k (by omega)
        refine ⟨s3, U, start _ ?_, a2, a3, a4.trans c3, a5.trans c4, a6.trans c2⟩
        rw [if_neg hp]
        exact (pm_bind_ok r1).trans <| (pm_bind_ok c1).trans a1

/-! ## Removal -/

theorem forget_keys {X : Type} (t : ATree N X) : t.forget.keys = t.keys := mapExt_keys _ t

theorem sides_of_sorted {X : Type} {l r : BTree (N × (X × Addr))} {w : N × (X × Addr)} {fs : List (AFrame N X)}
    (h : (plug (.node l w r) fs).keys.Pairwise (· < ·)) : sidesOk fs w.1 = true := by
  cases fs with
  | nil => rfl
  | cons f fs =>
    obtain ⟨A, B, k⟩ := plug_inorder fs
    rw [plug, BTree.keys, k, List.map_append, List.map_append] at h
    have h1 := (List.pairwise_append.1 (List.pairwise_append.1 h).1).2.1
    obtain ⟨d, u, o⟩ := f
    cases d with
    | true =>
      have := (sorted_node.1 (show (BTree.node (.node l w r) u o).keys.Pairwise (· < ·) from h1)).2.2.1 w.1 (by simp)
      simp [sidesOk, sideOk, this]
    | false =>
      have := (sorted_node.1 (show (BTree.node o u (.node l w r)).keys.Pairwise (· < ·) from h1)).2.2.2 w.1 (by simp)
      simp [sidesOk, sideOk, this.le]

theorem sorted_of_plug {X : Type} {t : BTree (N × X)} {fs : List (Above N X)}
    (h : (plug t fs).keys.Pairwise (· < ·)) : t.keys.Pairwise (· < ·) := by
  obtain ⟨A, B, k⟩ := plug_inorder fs
  rw [BTree.keys, k, List.map_append, List.map_append] at h
  exact (List.pairwise_append.1 (List.pairwise_append.1 h).1).2.1

theorem plug_inorder_congr {X : Type} (fs : List (Above N X)) {t u : BTree (N × X)} (h : t.inorder = u.inorder) :
    (plug t fs).inorder = (plug u fs).inorder := by
  obtain ⟨A, B, k⟩ := plug_inorder fs
  rw [k, k, h]

theorem pm_childPriority (m1 : P) {s : PTree N P} {t : ATree N P} {p : Option Addr} (h : PRep s.node p t) :
    pChildPriority m1 t.ptr s = (.ok (t.forget.prio m1), s) := by
  cases t with
  | nil => rfl
  | node l w r => exact pm_priority h

/-- what the loop of `remove` leaves behind, given what the value model says -/
def DownOut (m : PM N P (Option Addr × Option Addr)) (s : PTree N P) (V : Except Err (BTree (N × P) × N))
    (l r : ATree N P) (w : N × (P × Addr)) (fs : List (AFrame N P)) : Prop :=
  match V with
  | .ok (t, _) => ∃ s' fs', m s = (.ok (ctxPtr fs', some w.2.2), s') ∧ ZRep s' (.node .nil w .nil) fs' (some w.2.2) ∧
      plug .nil (forgetAll fs') = plug t (forgetAll fs) ∧ sidesOk fs' w.1 = true ∧
      ((l ≠ .nil ∨ r ≠ .nil ∨ fs ≠ []) → fs' ≠ []) ∧ s'.length = s.length ∧ s'.warned = s.warned ∧ s'.next = s.next
  | .error e => ∃ s' T, m s = (.error e, s') ∧ ZRep s' T [] T.ptr ∧
      T.inorder = (plug (.node l w r) fs).inorder ∧ s'.length = s.length ∧ s'.warned = s.warned ∧ s'.next = s.next

theorem treapDown_right (m1 : P) (w : N × P) (n : Nat) (ll lr r : BTree (N × P)) (lv : N × P)
    (h : (BTree.node ll lv lr).prio m1 > r.prio m1) :
    treapDown m1 w (n + 1) (.node ll lv lr) r = (treapDown m1 w n lr r).bind fun x =>
      if sameSide false x.2 lv.1 then .ok (.node ll lv x.1, lv.1) else .error .unmodelled := by
  rw [treapDown_succ m1 w n _ _ (by simp), if_pos h]; rfl

theorem treapDown_left (m1 : P) (w : N × P) (n : Nat) (rl rr l : BTree (N × P)) (rv : N × P)
    (h : ¬ l.prio m1 > (BTree.node rl rv rr).prio m1) :
    treapDown m1 w (n + 1) l (.node rl rv rr) = (treapDown m1 w n l rl).bind fun x =>
      if sameSide true x.2 rv.1 then .ok (.node x.1 rv rr, rv.1) else .error .unmodelled := by
  rw [treapDown_succ m1 w n _ _ (by simp), if_neg h]; rfl

theorem treapDown_noLeft (m1 : P) (w : N × P) (n : Nat) (r : BTree (N × P)) (hr : r ≠ .nil)
    (h : (BTree.nil : BTree (N × P)).prio m1 > r.prio m1) :
    treapDown m1 w (n + 1) .nil r = .error .attributeError := by
  rw [treapDown_succ m1 w n _ _ (by simp [hr]), if_pos h]

theorem treapDown_noRight (m1 : P) (w : N × P) (n : Nat) (l : BTree (N × P)) (hl : l ≠ .nil)
    (h : ¬ l.prio m1 > (BTree.nil : BTree (N × P)).prio m1) :
    treapDown m1 w (n + 1) l .nil = .error .attributeError := by
  rw [treapDown_succ m1 w n _ _ (by simp [hl]), if_neg h]

theorem pm_treapDown (m1 : P) : ∀ (n : Nat) {s : PTree N P} {fs : List (AFrame N P)} {l r : ATree N P}
    {w : N × (P × Addr)} (fuel : Nat), ZRep s (.node l w r) fs (some w.2.2) →
    (plug (.node l w r) fs).keys.Pairwise (· < ·) → l.addrs.length + r.addrs.length ≤ n → n < fuel →
    DownOut (pTreapDown m1 fuel (ctxPtr fs) (some w.2.2)) s (treapDown m1 (w.1, w.2.1) n l.forget r.forget) l r w fs := by
  intro n
  induction n with
  | zero =>
    intro s fs l r w fuel Z hs hn hf
    obtain ⟨k, rfl⟩ : ∃ k, fuel = k + 1 := ⟨fuel - 1, by omega⟩
    cases l with
    | node => simp [BTree.addrs] at hn
    | nil =>
      cases r with
      | node => simp [BTree.addrs] at hn
      | nil => exact ⟨s, fs, (pm_bind_ok (pm_isLeaf Z.rep.1)).trans rfl, Z, rfl, sides_of_sorted hs, by simp, rfl, rfl, rfl⟩
  | succ n ih =>
    intro s fs l r w fuel Z hs hn hf
    obtain ⟨k, rfl⟩ : ∃ k, fuel = k + 1 := ⟨fuel - 1, by omega⟩
    by_cases hnil : l = .nil ∧ r = .nil
    · obtain ⟨rfl, rfl⟩ := hnil
      exact ⟨s, fs, (pm_bind_ok (pm_isLeaf Z.rep.1)).trans rfl, Z, rfl, sides_of_sorted hs, by simp, rfl, rfl, rfl⟩
    · have hleaf : (l.ptr.isNone && r.ptr.isNone) = false := by
        cases l <;> cases r <;> first | exact absurd ⟨rfl, rfl⟩ hnil | rfl
      have hnil' : ¬(l.forget = .nil ∧ r.forget = .nil) := fun h => hnil ⟨forget_nil h.1, forget_nil h.2⟩
      have start : ∀ X, (if l.forget.prio m1 > r.forget.prio m1 then
            pRotateRight (plainClass P) (some w.2.2) >>= fun top =>
            pAttach (plainClass P) (ctxPtr fs) top >>= fun _ =>
            pRight top >>= fun q => pTreapDown m1 k top q
          else
            pRotateLeft (plainClass P) (some w.2.2) >>= fun top =>
            pAttach (plainClass P) (ctxPtr fs) top >>= fun _ =>
            pLeft top >>= fun q => pTreapDown m1 k top q) s = X →
          pTreapDown m1 (k + 1) (ctxPtr fs) (some w.2.2) s = X := by
        rintro X rfl
        refine (pm_bind_ok (pm_isLeaf Z.rep.1)).trans ?_
        rw [hleaf, if_neg (by simp)]
        refine (pm_bind_ok (pm_left Z.rep.1)).trans <| (pm_bind_ok (pm_right Z.rep.1)).trans <|
          (pm_bind_ok (pm_childPriority m1 Z.rep.2.1)).trans <| (pm_bind_ok (pm_childPriority m1 Z.rep.2.2)).trans ?_
        split_ifs <;> rfl
      have hw := sorted_node.1 (sorted_of_plug hs)
      by_cases hp : l.forget.prio m1 > r.forget.prio m1
      · cases l with
        | nil =>
          have hv := treapDown_noLeft m1 (w.1, w.2.1) n r.forget (fun h => hnil ⟨rfl, forget_nil h⟩) hp
          rw [show (BTree.nil : ATree N P).forget = .nil from rfl, hv]
          refine ⟨s, plug (.node .nil w r) fs, start _ ?_, Z.plug, rfl, rfl, rfl, rfl⟩
          rw [if_pos hp]
          refine pm_bind_err ?_
          refine (pm_bind_ok (pm_assert _ _)).trans <| (pm_bind_ok (pm_left Z.rep.1)).trans <|
            (pm_bind_ok (pm_parent Z.rep.1)).trans <| (pm_bind_err rfl)
        | node ll lv lr =>
          obtain ⟨nd1, r1, Z1⟩ := Z.rotateRight
          have hk : (plug (.node ll lv (.node lr w r)) fs).keys = (plug (.node (.node ll lv lr) w r) fs).keys := by
            rw [BTree.keys, BTree.keys]
            exact congrArg _ (plug_inorder_congr fs (by simp [BTree.inorder]))
          obtain ⟨s2, c1, Z2, c2, c3, c4⟩ := pm_attach (C := plainClass P) Z1 (sides_of_sorted (by rw [hk]; exact hs))
          rw [attached_plain'] at Z2
          have hd := ih k Z2.right (by rw [plug]; simpa using hk ▸ hs)
            (by simp only [BTree.addrs, List.length_cons, List.length_append] at hn; omega) (by omega)
          have run : pTreapDown m1 (k + 1) (ctxPtr fs) (some w.2.2) s =
              pTreapDown m1 k (some lv.2.2) (some w.2.2) s2 := by
            refine start _ ?_
            rw [if_pos hp]
            exact (pm_bind_ok r1).trans <| (pm_bind_ok c1).trans <| (pm_bind_ok (pm_right Z2.rep.1)).trans rfl
          have e0 : (BTree.node ll lv lr).forget = .node ll.forget (lv.1, lv.2.1) lr.forget := rfl
          rw [e0, treapDown_right m1 (w.1, w.2.1) n ll.forget lr.forget r.forget (lv.1, lv.2.1) hp]
          cases hv : treapDown m1 (w.1, w.2.1) n lr.forget r.forget with
          | error e =>
            rw [hv] at hd
            obtain ⟨s', T, d1, d2, d3, d4, d5, d6⟩ := hd
            refine ⟨s', T, run.trans d1, d2, d3.trans ?_, d4.trans c3, d5.trans c4, d6.trans c2⟩
            rw [plug]; exact plug_inorder_congr fs (by simp [BTree.inorder])
          | ok x =>
            obtain ⟨t0, c0⟩ := x
            rw [hv] at hd
            obtain ⟨s', fs', d1, d2, d3, d4, d5, d6, d7, d8⟩ := hd
            have hc : lv.1 < c0 := by
              have hlw : lv.1 < w.1 := hw.2.2.1 _ (by simp)
              have hl := sorted_node.1 hw.1
              rcases (treapDown_ok m1 _ n _ _ _ _ hv).2.1 with rfl | h | h
              · exact hlw
              · rw [forget_keys] at h; exact hl.2.2.2 _ h
              · rw [forget_keys] at h; exact hlw.trans (hw.2.2.2 _ h)
            simp only [Except.bind, sameSide_right hc, if_true]
            exact ⟨s', fs', run.trans d1, d2, d3, d4, fun _ => d5 (by simp), d6.trans c3, d7.trans c4, d8.trans c2⟩
      · cases r with
        | nil =>
          have hv := treapDown_noRight m1 (w.1, w.2.1) n l.forget (fun h => hnil ⟨forget_nil h, rfl⟩) hp
          rw [show (BTree.nil : ATree N P).forget = .nil from rfl, hv]
          refine ⟨s, plug (.node l w .nil) fs, start _ ?_, Z.plug, rfl, rfl, rfl, rfl⟩
          rw [if_neg hp]
          refine pm_bind_err ?_
          refine (pm_bind_ok (pm_assert _ _)).trans <| (pm_bind_ok (pm_right Z.rep.1)).trans <|
            (pm_bind_ok (pm_parent Z.rep.1)).trans <| (pm_bind_err rfl)
        | node rl rv rr =>
          obtain ⟨nd1, r1, Z1⟩ := Z.rotateLeft
          have hk : (plug (.node (.node l w rl) rv rr) fs).keys = (plug (.node l w (.node rl rv rr)) fs).keys := by
            rw [BTree.keys, BTree.keys]
            exact congrArg _ (plug_inorder_congr fs (by simp [BTree.inorder]))
          obtain ⟨s2, c1, Z2, c2, c3, c4⟩ := pm_attach (C := plainClass P) Z1 (sides_of_sorted (by rw [hk]; exact hs))
          rw [attached_plain'] at Z2
          have hd := ih k Z2.left (by rw [plug]; simpa using hk ▸ hs)
            (by simp only [BTree.addrs, List.length_cons, List.length_append] at hn; omega) (by omega)
          have run : pTreapDown m1 (k + 1) (ctxPtr fs) (some w.2.2) s =
              pTreapDown m1 k (some rv.2.2) (some w.2.2) s2 := by
            refine start _ ?_
            rw [if_neg hp]
            exact (pm_bind_ok r1).trans <| (pm_bind_ok c1).trans <| (pm_bind_ok (pm_left Z2.rep.1)).trans rfl
          have e0 : (BTree.node rl rv rr).forget = .node rl.forget (rv.1, rv.2.1) rr.forget := rfl
          rw [e0, treapDown_left m1 (w.1, w.2.1) n rl.forget rr.forget l.forget (rv.1, rv.2.1) hp]
          cases hv : treapDown m1 (w.1, w.2.1) n l.forget rl.forget with
          | error e =>
            rw [hv] at hd
            obtain ⟨s', T, d1, d2, d3, d4, d5, d6⟩ := hd
            refine ⟨s', T, run.trans d1, d2, d3.trans ?_, d4.trans c3, d5.trans c4, d6.trans c2⟩
            rw [plug]; exact plug_inorder_congr fs (by simp [BTree.inorder])
          | ok x =>
            obtain ⟨t0, c0⟩ := x
            rw [hv] at hd
            obtain ⟨s', fs', d1, d2, d3, d4, d5, d6, d7, d8⟩ := hd
            have hc : c0 < rv.1 := by
              have hwr : w.1 < rv.1 := hw.2.2.2 _ (by simp)
              have hr := sorted_node.1 hw.2.1
              rcases (treapDown_ok m1 _ n _ _ _ _ hv).2.1 with rfl | h | h
              · exact hwr
              · rw [forget_keys] at h; exact (hw.2.2.1 _ h).trans hwr
              · rw [forget_keys] at h; exact hr.2.2.1 _ h
            simp only [Except.bind, sameSide_left hc, if_true]
            exact ⟨s', fs', run.trans d1, d2, d3, d4, fun _ => d5 (by simp), d6.trans c3, d7.trans c4, d8.trans c2⟩

/-- `remove` of the value model, in terms of the way to the node -/
theorem treapRemove_path (m1 : P) (v : N) (t : BTree (N × P)) (hs : t.keys.Pairwise (· < ·)) (h0 : t ≠ .nil) :
    (t.dataAt (t.search v) ≠ some v → t.treapRemove m1 v = .ok none) ∧
    ∀ l w r, t.walk (t.search v) = .node l w r → w.1 = v →
      (∀ t' c, treapDown m1 w (l.inorder.length + r.inorder.length) l r = .ok (t', c) →
        ∃ c', t.treapRemove m1 v = .ok (some (plug t' (t.above (t.search v)), c')) ∧ ∀ x, c' = some x → x ∈ t.keys) ∧
      (∀ e, treapDown m1 w (l.inorder.length + r.inorder.length) l r = .error e → t.treapRemove m1 v = .error e) := by
  induction t with
  | nil => exact absurd rfl h0
  | node l w r ihl ihr =>
    obtain ⟨s1, s2, s3, s4⟩ := sorted_node.1 hs
    rw [search_node]
    by_cases h1 : v = w.1
    · rw [if_pos h1]
      refine ⟨fun h => absurd (by simp [BTree.dataAt, BTree.walk, h1]) h, ?_⟩
      intro l' w' r' hw hv
      simp only [BTree.walk, BTree.node.injEq] at hw
      obtain ⟨rfl, rfl, rfl⟩ := hw
      refine ⟨fun t' c e => ⟨some c, ?_, ?_⟩, fun e he => ?_⟩
      · simp only [BTree.treapRemove, if_pos h1, e, bind, Except.bind, pure, Except.pure, BTree.above, plug]
      · rintro x hx; cases hx
        rcases (treapDown_ok m1 _ _ _ _ _ _ e).2.1 with rfl | h | h
        · simp
        · simp [h]
        · simp [h]
      · simp only [BTree.treapRemove, if_pos h1, he, bind, Except.bind]
    · rw [if_neg h1]
      by_cases h2 : v < w.1
      · rw [if_pos h2]
        have hr : (BTree.node l w r).treapRemove m1 v = (l.treapRemove m1 v).bind fun
            | none => .ok none
            | some (l', some c) => if sameSide true c w.1 then .ok (some (.node l' w r, none)) else .error .unmodelled
            | some (l', none) => .ok (some (.node l' w r, none)) := by
          rw [BTree.treapRemove, if_neg h1, if_pos h2]
          cases l.treapRemove m1 v with
          | error e => rfl
          | ok x => rcases x with _ | ⟨x, _ | c⟩ <;> rfl
        by_cases hl : l = .nil
        · subst hl
          rw [if_pos rfl]
          refine ⟨fun _ => by rw [hr]; rfl, ?_⟩
          intro l' w' r' hw hv
          simp only [BTree.walk, BTree.node.injEq] at hw
          exact absurd (hw.2.1 ▸ hv).symm h1
        · rw [if_neg hl]
          obtain ⟨i1, i2⟩ := ihl s1 hl
          refine ⟨fun h => by rw [hr, i1 h]; rfl, fun l' w' r' hw hv => ?_⟩
          obtain ⟨j1, j2⟩ := i2 l' w' r' hw hv
          refine ⟨fun t' c e => ?_, fun e he => by rw [hr, j2 e he]; rfl⟩
          obtain ⟨c', k1, k2⟩ := j1 t' c e
          refine ⟨none, ?_, by simp⟩
          have hp : plug t' ((BTree.node l w r).above (false :: l.search v)) =
              .node (plug t' (l.above (l.search v))) w r := by
            rw [BTree.above, plug_append]; rfl
          rw [hr, k1, hp]
          cases c' with
          | none => rfl
          | some x => simp only [Except.bind, sameSide_left (s3 _ (k2 x rfl)), if_true]
      · rw [if_neg h2]
        have hlt : w.1 < v := lt_of_le_of_ne (not_lt.1 h2) (Ne.symm h1)
        have hr : (BTree.node l w r).treapRemove m1 v = (r.treapRemove m1 v).bind fun
            | none => .ok none
            | some (l', some c) => if sameSide false c w.1 then .ok (some (.node l w l', none)) else .error .unmodelled
            | some (l', none) => .ok (some (.node l w l', none)) := by
          rw [BTree.treapRemove, if_neg h1, if_neg h2]
          cases r.treapRemove m1 v with
          | error e => rfl
          | ok x => rcases x with _ | ⟨x, _ | c⟩ <;> rfl
        by_cases hl : r = .nil
        · subst hl
          rw [if_pos rfl]
          refine ⟨fun _ => by rw [hr]; rfl, ?_⟩
          intro l' w' r' hw hv
          simp only [BTree.walk, BTree.node.injEq] at hw
          exact absurd (hw.2.1 ▸ hv).symm h1
        · rw [if_neg hl]
          obtain ⟨i1, i2⟩ := ihr s2 hl
          refine ⟨fun h => by rw [hr, i1 h]; rfl, fun l' w' r' hw hv => ?_⟩
          obtain ⟨j1, j2⟩ := i2 l' w' r' hw hv
          refine ⟨fun t' c e => ?_, fun e he => by rw [hr, j2 e he]; rfl⟩
          obtain ⟨c', k1, k2⟩ := j1 t' c e
          refine ⟨none, ?_, by simp⟩
          have hp : plug t' ((BTree.node l w r).above (true :: r.search v)) =
              .node l w (plug t' (r.above (r.search v))) := by
            rw [BTree.above, plug_append]; rfl
          rw [hr, k1, hp]
          cases c' with
          | none => rfl
          | some x => simp only [Except.bind, sameSide_right (s4 _ (k2 x rfl)), if_true]

end Extra
