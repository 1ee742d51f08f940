import Verif.Trees.PtrAvl
import Verif.Trees.PtrSplayCalls

/-!
# `AVL` on node objects: helper lemmas
-/

set_option linter.unusedSimpArgs false
set_option linter.unusedSectionVars false

namespace Extra
variable {N : Type} [LinearOrder N]

theorem avlClass_ok : avlClass.Ok := fun _ _ _ _ _ => rfl

theorem sideHeight_ext (t : ATree N Nat) : sideHeight t.ext? = t.forget.hl := by cases t <;> rfl

theorem forget_relinked (l r : ATree N Nat) (w : N × (Nat × Addr)) :
    (relinked avlClass l w r).forget = avlNode l.forget w.1 r.forget := by
  have h : ∀ t : ATree N Nat, sideHeight t.ext? = (BTree.mapExt Prod.fst t).hl := sideHeight_ext
  simp only [relinked, BTree.forget, mapExt_node, avlNode, avlClass, h]

section
variable {s : PTree N Nat} {p hole : Option Addr} {l r : ATree N Nat} {w : N × (Nat × Addr)} {fs : List (AFrame N Nat)}

theorem pm_heights (h : PRep s.node p (.node l w r)) :
    pHeights (some w.2.2) s = (.ok (l.forget.hl, r.forget.hl), s) := by
  refine (pm_bind_ok (pm_node h.1)).trans <| (pm_bind_ok (pm_ext h.2.1)).trans <| (pm_bind_ok (pm_ext h.2.2)).trans ?_
  rw [sideHeight_ext, sideHeight_ext]; rfl

theorem pm_balanced (h : PRep s.node p (.node l w r)) :
    pBalanced (some w.2.2) s =
      (.ok (decide (l.forget.hl ≤ r.forget.hl + 1 ∧ r.forget.hl ≤ l.forget.hl + 1)), s) :=
  (pm_bind_ok (pm_heights h)).trans rfl

/-- what the four rotations do, from the value model -/
def RotatesTo (m : Option Addr → PM N Nat (Option Addr)) (T : Except Err (BTree (N × Nat))) (s : PTree N Nat)
    (p : Option Addr) (t : ATree N Nat) : Prop :=
  ∀ T', T = .ok T' → ∃ nd' U, m t.ptr s = (.ok U.ptr, s.put nd') ∧ PRep nd' p U ∧ U.addrs.Perm t.addrs ∧
    U.forget = T' ∧ U ≠ .nil ∧ ∀ b, b ∉ t.addrs → nd' b = s.node b

theorem rotates_left {t : ATree N Nat} (h : PRep s.node p t) (hn : t.addrs.Nodup) :
    RotatesTo (pRotateLeft avlClass) t.forget.avlRotateLeft s p t := by
  intro T' e
  rcases t with _ | ⟨A, v, _ | ⟨B, w, D⟩⟩
  · simp [BTree.forget, mapExt_nil, mapExt_node, BTree.avlRotateLeft] at e
  · simp [BTree.forget, mapExt_nil, mapExt_node, BTree.avlRotateLeft] at e
  · obtain ⟨nd', e1, R, F⟩ := pm_rotateLeft (C := avlClass) h hn
    refine ⟨nd', relinked avlClass (relinked avlClass A v B) w D, e1, R, ?_, ?_, by simp [relinked], F⟩
    · rw [List.perm_iff_count]
      intro x
      simp only [addrs_relinked, BTree.addrs, List.count_cons, List.count_append]; omega
    · simp only [forget_relinked]
      simp only [BTree.forget, mapExt_node, BTree.avlRotateLeft, Except.ok.injEq] at e
      exact e

theorem rotates_right {t : ATree N Nat} (h : PRep s.node p t) (hn : t.addrs.Nodup) :
    RotatesTo (pRotateRight avlClass) t.forget.avlRotateRight s p t := by
  intro T' e
  rcases t with _ | ⟨_ | ⟨A, v, B⟩, w, D⟩
  · simp [BTree.forget, mapExt_nil, mapExt_node, BTree.avlRotateRight] at e
  · simp [BTree.forget, mapExt_nil, mapExt_node, BTree.avlRotateRight] at e
  · obtain ⟨nd', e1, R, F⟩ := pm_rotateRight (C := avlClass) h hn
    refine ⟨nd', relinked avlClass A v (relinked avlClass B w D), e1, R, ?_, ?_, by simp [relinked], F⟩
    · rw [List.perm_iff_count]
      intro x
      simp only [addrs_relinked, BTree.addrs, List.count_cons, List.count_append]; omega
    · simp only [forget_relinked]
      simp only [BTree.forget, mapExt_node, BTree.avlRotateRight, Except.ok.injEq] at e
      exact e

theorem rotates_leftRight {t : ATree N Nat} (h : PRep s.node p t) (hn : t.addrs.Nodup) :
    RotatesTo (pRotateLeftRight avlClass) t.forget.avlRotateLeftRight s p t := by
  intro T' e
  rcases t with _ | ⟨_ | ⟨A, u, _ | ⟨B, v, D⟩⟩, w, E⟩
  · simp [BTree.forget, mapExt_nil, mapExt_node, BTree.avlRotateLeftRight] at e
  · simp [BTree.forget, mapExt_nil, mapExt_node, BTree.avlRotateLeftRight] at e
  · simp [BTree.forget, mapExt_nil, mapExt_node, BTree.avlRotateLeftRight] at e
  · obtain ⟨nd', e1, R, F⟩ := pm_rotateLeftRight (C := avlClass) avlClass_ok h hn
    refine ⟨nd', relinked avlClass (relinked avlClass A u B) v (relinked avlClass D w E), e1, R, ?_, ?_, by simp [relinked], F⟩
    · rw [List.perm_iff_count]
      intro x
      simp only [addrs_relinked, BTree.addrs, List.count_cons, List.count_append]; omega
    · simp only [forget_relinked]
      simp only [BTree.forget, mapExt_node, BTree.avlRotateLeftRight, Except.ok.injEq] at e
      exact e

theorem rotates_rightLeft {t : ATree N Nat} (h : PRep s.node p t) (hn : t.addrs.Nodup) :
    RotatesTo (pRotateRightLeft avlClass) t.forget.avlRotateRightLeft s p t := by
  intro T' e
  rcases t with _ | ⟨A, u, _ | ⟨_ | ⟨B, v, D⟩, w, E⟩⟩
  · simp [BTree.forget, mapExt_nil, mapExt_node, BTree.avlRotateRightLeft] at e
  · simp [BTree.forget, mapExt_nil, mapExt_node, BTree.avlRotateRightLeft] at e
  · simp [BTree.forget, mapExt_nil, mapExt_node, BTree.avlRotateRightLeft] at e
  · obtain ⟨nd', e1, R, F⟩ := pm_rotateRightLeft (C := avlClass) avlClass_ok h hn
    refine ⟨nd', relinked avlClass (relinked avlClass A u B) v (relinked avlClass D w E), e1, R, ?_, ?_, by simp [relinked], F⟩
    · rw [List.perm_iff_count]
      intro x
      simp only [addrs_relinked, BTree.addrs, List.count_cons, List.count_append]; omega
    · simp only [forget_relinked]
      simp only [BTree.forget, mapExt_node, BTree.avlRotateRightLeft, Except.ok.injEq] at e
      exact e

theorem pm_rebalance {t : ATree N Nat} (h : PRep s.node p t) (hn : t.addrs.Nodup) :
    RotatesTo pRebalance t.forget.rebalance s p t := by
  intro T' e
  rcases t with _ | ⟨l, g, r⟩
  · simp [BTree.forget, mapExt_nil, BTree.rebalance] at e
  have e0 : (BTree.node l g r).forget = .node l.forget (g.1, g.2.1) r.forget := rfl
  rw [e0] at e
  -- the heavy child
  obtain ⟨P, hP, eP, rP⟩ : ∃ P : ATree N Nat, heavy l.forget r.forget = P.forget ∧
      (if l.forget.hl > r.forget.hl then pLeft (some g.2.2) else pRight (some g.2.2)) s = (.ok P.ptr, s) ∧
      PRep s.node (some g.2.2) P := by
    unfold heavy
    split
    · exact ⟨l, rfl, pm_left h.1, h.2.1⟩
    · exact ⟨r, rfl, pm_right h.1, h.2.2⟩
  rcases P with _ | ⟨pl, P, pr⟩
  · rw [show (BTree.nil : ATree N Nat).forget = .nil from rfl] at hP
    simp only [BTree.rebalance, hP] at e; cases e
  obtain ⟨Q, hQ, eQ, rQ⟩ : ∃ Q : ATree N Nat, heavy pl.forget pr.forget = Q.forget ∧
      (if pl.forget.hl > pr.forget.hl then pLeft (some P.2.2) else pRight (some P.2.2)) s = (.ok Q.ptr, s) ∧
      PRep s.node (some P.2.2) Q := by
    unfold heavy
    split
    · exact ⟨pl, rfl, pm_left rP.1, rP.2.1⟩
    · exact ⟨pr, rfl, pm_right rP.1, rP.2.2⟩
  have e1 : (BTree.node pl P pr).forget = .node pl.forget (P.1, P.2.1) pr.forget := rfl
  rw [e1] at hP
  rcases Q with _ | ⟨ql, Q, qr⟩
  · rw [show (BTree.nil : ATree N Nat).forget = .nil from rfl] at hQ
    simp only [BTree.rebalance, hP, hQ] at e; cases e
  have e2 : (BTree.node ql Q qr).forget = .node ql.forget (Q.1, Q.2.1) qr.forget := rfl
  rw [e2] at hQ
  simp only [BTree.rebalance, hP, hQ] at e
  have start : ∀ X, (if g.1 > P.1 then if P.1 > Q.1 then pRotateRight avlClass (some g.2.2) else pRotateLeftRight avlClass (some g.2.2)
      else if P.1 > Q.1 then pRotateRightLeft avlClass (some g.2.2) else pRotateLeft avlClass (some g.2.2)) s = X →
      pRebalance (some g.2.2) s = X := by
    rintro X rfl
    refine (pm_bind_ok (pm_assert _ _)).trans <| (pm_bind_ok (pm_heights h)).trans <| (pm_bind_ok eP).trans <|
      (pm_bind_ok (pm_heights rP)).trans <| (pm_bind_ok eQ).trans <|
      (pm_bind_ok (pm_isLeftChild rP.1 rfl h.1)).trans ?_
    by_cases h1 : g.1 > P.1
    · simp only [h1, decide_true, if_true]
      refine (pm_bind_ok (pm_isLeftChild rQ.1 rfl rP.1)).trans ?_
      by_cases h2 : P.1 > Q.1 <;> simp [h2]
    · simp only [h1, decide_false, Bool.false_eq_true, if_false]
      refine (pm_bind_ok (pm_isLeftChild rQ.1 rfl rP.1)).trans ?_
      by_cases h2 : P.1 > Q.1 <;> simp [h2]
  rw [← e0] at e
  have fin : ∀ {m : Option Addr → PM N Nat (Option Addr)} {T : Except Err (BTree (N × Nat))},
      RotatesTo m T s p (.node l g r) → T = .ok T' → pRebalance (some g.2.2) s = m (some g.2.2) s →
      ∃ nd' U, pRebalance (BTree.node l g r).ptr s = (.ok U.ptr, s.put nd') ∧ PRep nd' p U ∧
        U.addrs.Perm (BTree.node l g r).addrs ∧ U.forget = T' ∧ U ≠ .nil ∧
        ∀ b, b ∉ (BTree.node l g r).addrs → nd' b = s.node b := by
    intro m T hR hT hm
    obtain ⟨nd', U, a1, a2⟩ := hR T' hT
    exact ⟨nd', U, hm.trans a1, a2⟩
  by_cases h1 : g.1 > P.1
  · rw [if_pos h1] at e
    by_cases h2 : P.1 > Q.1
    · rw [if_pos h2] at e
      exact fin (rotates_right h hn) e (start _ (by rw [if_pos h1, if_pos h2]))
    · rw [if_neg h2] at e
      exact fin (rotates_leftRight h hn) e (start _ (by rw [if_pos h1, if_neg h2]))
  · rw [if_neg h1] at e
    by_cases h2 : P.1 > Q.1
    · rw [if_pos h2] at e
      exact fin (rotates_rightLeft h hn) e (start _ (by rw [if_neg h1, if_pos h2]))
    · rw [if_neg h2] at e
      exact fin (rotates_left h hn) e (start _ (by rw [if_neg h1, if_neg h2]))

end

/-! ## The loop -/

/-- the loop of the value model, from a subtree up the nodes above it -/
def avlClimb : BTree (N × Nat) → Bool → List (Above N Nat) → Except Err (BTree (N × Nat) × Bool)
  | t, rot, [] => .ok (t, rot)
  | t, rot, f :: fs => do
    let (t', rot') ← avlLink f.left t rot f.w.1 f.other
    avlClimb t' rot' fs

theorem avlLink_ok {d rot : Bool} {c o : BTree (N × Nat)} {w : N} {x : BTree (N × Nat) × Bool}
    (h : avlLink d c rot w o = .ok x) :
    (rot = true → attachSide w c d = true) ∧ (if d then avlUp c w o else avlUp o w c) = .ok x := by
  unfold avlLink at h
  split at h
  · cases h
  next hc => exact ⟨fun hr => by simpa [hr] using hc, h⟩

/-- frames without the addresses -/
def forgetAll {X : Type} (fs : List (AFrame N X)) : List (Above N X) := fs.map (Above.mapExt Prod.fst)

theorem avlClimb_attached (t : BTree (N × Nat)) (rot : Bool) (U : ATree N Nat) (fs : List (AFrame N Nat)) :
    avlClimb t rot (forgetAll (attached avlClass U fs)) = avlClimb t rot (forgetAll fs) := by
  cases fs <;> rfl

/-- one round without rotation: the height is set -/
theorem pm_relink_root {s : PTree N Nat} {l r : ATree N Nat} {w : N × (Nat × Addr)} {fs : List (AFrame N Nat)}
    (Z : ZRep s (.node l w r) fs (some w.2.2)) :
    ∃ nd', pRelink avlClass (some w.2.2) s = (.ok (), s.put nd') ∧
      ZRep (s.put nd') (relinked avlClass l w r) fs (some w.2.2) := by
  have hn := (List.nodup_append.mp Z.nodup).1
  simp only [BTree.addrs, List.nodup_cons, List.mem_append, not_or] at hn
  refine ⟨_, pm_relink Z.rep.1 rfl rfl Z.rep.2.1 Z.rep.2.2, Z.change ⟨?_, ?_, ?_⟩ (List.Perm.subperm ?_) ?_⟩
  · simp
  · exact Z.rep.2.1.frame fun a ha => upd_other _ _ (by rintro rfl; exact hn.1.1 ha)
  · exact Z.rep.2.2.frame fun a ha => upd_other _ _ (by rintro rfl; exact hn.1.2 ha)
  · simp [BTree.addrs]
  · intro b hb
    exact upd_other _ _ (by rintro rfl; exact hb (by simp [BTree.addrs]))

theorem pm_avlLoop : ∀ (fs : List (AFrame N Nat)) {s : PTree N Nat} {t : ATree N Nat} {rot rot' : Bool}
    {T' : BTree (N × Nat)}, ZRep s t fs t.ptr → avlClimb t.forget rot (forgetAll fs) = .ok (T', rot') →
    ∀ fuel, fs.length < fuel →
    ∃ s' U, pAvlLoop fuel (ctxPtr fs) s = (.ok (), s') ∧ ZRep s' U [] U.ptr ∧ U.forget = T' ∧
      s'.length = s.length ∧ s'.warned = s.warned ∧ s'.next = s.next
  | [], s, t, rot, rot', T', Z, e, fuel, hf => by
    obtain ⟨n, rfl⟩ : ∃ n, fuel = n + 1 := ⟨fuel - 1, by omega⟩
    cases e
    exact ⟨s, t, rfl, Z, rfl, rfl, rfl, rfl⟩
  | f :: fs, s, t, rot, rot', T', Z, e, fuel, hf => by
    obtain ⟨n, rfl⟩ : ∃ n, fuel = n + 1 := ⟨fuel - 1, by omega⟩
    simp only [List.length_cons] at hf
    -- the node and its children
    obtain ⟨l, r, hlr, hup⟩ : ∃ l r : ATree N Nat, ZRep s (.node l f.w r) fs (some f.w.2.2) ∧
        ∃ t1 rot1, avlUp l.forget f.w.1 r.forget = .ok (t1, rot1) ∧ avlClimb t1 rot1 (forgetAll fs) = .ok (T', rot') := by
      have hZ := Z.up
      simp only [forgetAll, List.map_cons, avlClimb, bind, Except.bind] at e
      split at e
      · cases e
      next x hx =>
        obtain ⟨t1, rot1⟩ := x
        obtain ⟨d, w, o⟩ := f
        have hx := (avlLink_ok hx).2
        cases d
        · exact ⟨o, t, hZ, t1, rot1, hx, e⟩
        · exact ⟨t, o, hZ, t1, rot1, hx, e⟩
    obtain ⟨t1, rot1, hx, e⟩ := hup
    obtain ⟨nd1, e1, Z1⟩ := pm_relink_root hlr
    have hb := pm_balanced Z1.rep
    have start : ∀ X, (if decide (l.forget.hl ≤ r.forget.hl + 1 ∧ r.forget.hl ≤ l.forget.hl + 1) then
          pAvlLoop n (ctxPtr fs)
        else do
          let q ← pRebalance (some f.w.2.2)
          pAttach avlClass (ctxPtr fs) q
          pAvlLoop n (ctxPtr fs)) (s.put nd1) = X → pAvlLoop (n + 1) (ctxPtr (f :: fs)) s = X := by
      rintro X rfl
      simp only [ctxPtr, pAvlLoop, Option.isNone_some, Bool.false_eq_true, if_false]
      exact (pm_bind_ok (pm_parent hlr.rep.1)).trans <| (pm_bind_ok e1).trans <| (pm_bind_ok hb)
    unfold avlUp at hx
    split at hx
    next hbal =>
      simp only [Except.ok.injEq, Prod.mk.injEq] at hx
      obtain ⟨rfl, rfl⟩ := hx
      rw [← forget_relinked] at e
      obtain ⟨s', U, a1, a2, a3, a4, a5, a6⟩ := pm_avlLoop fs Z1 e n (by omega)
      refine ⟨s', U, start _ ?_, a2, a3, a4, a5, a6⟩
      rw [decide_eq_true hbal, if_pos rfl]; exact a1
    next hbal =>
      rw [← forget_relinked] at hx
      simp only [bind, Except.bind, pure, Except.pure] at hx
      split at hx
      · cases hx
      next t2 ht2 =>
        simp only [Except.ok.injEq, Prod.mk.injEq] at hx
        obtain ⟨rfl, rfl⟩ := hx
        obtain ⟨nd2, U, b1, b2, b3, b4, b5, b6⟩ := pm_rebalance Z1.rep (List.nodup_append.mp Z1.nodup).1 _ ht2
        have Z2 := Z1.change b2 b3.subperm b6
        obtain ⟨ul, uw, ur, rfl⟩ : ∃ ul uw ur, U = .node ul uw ur := by
          cases U with
          | nil => exact absurd rfl b5
          | node ul uw ur => exact ⟨_, _, _, rfl⟩
        have hside : sidesOk fs uw.1 = true := by
          cases fs with
          | nil => rfl
          | cons f2 fs2 =>
            simp only [forgetAll, List.map_cons, avlClimb, bind, Except.bind] at e
            split at e
            · cases e
            next x hx =>
              have hs := (avlLink_ok hx).1 rfl
              rw [← b4] at hs
              exact hs
        obtain ⟨s3, c1, Z3, c2, c3, c4⟩ := pm_attach (C := avlClass) Z2 hside
        rw [← b4, ← avlClimb_attached _ _ (.node ul uw ur)] at e
        obtain ⟨s', V, a1, a2, a3, a4, a5, a6⟩ := pm_avlLoop (attached avlClass (.node ul uw ur) fs) Z3 e n
          (by cases fs <;> simp [attached] at hf ⊢ <;> omega)
        rw [attached_ptr] at a1
        refine ⟨s', V, start _ ?_, a2, a3, a4.trans c3, a5.trans c4, a6.trans c2⟩
        rw [decide_eq_false hbal, if_neg (by simp)]
        exact (pm_bind_ok b1).trans <| (pm_bind_ok c1).trans a1
  termination_by fs => fs.length
  decreasing_by all_goals (first | (cases fs <;> simp [attached]))

end Extra
