import Verif.Trees.PtrRb
import Verif.Trees.PtrTreapCalls
import Verif.Trees.RedBlackProofs

/-!
# `RedBlackTree` on node objects: helper lemmas for insertion
-/

set_option linter.unusedSimpArgs false
set_option linter.unusedSectionVars false

namespace Extra
variable {N : Type} [LinearOrder N]

theorem relinked_rb (l r : ATree N Color) (w : N × (Color × Addr)) : relinked rbClass l w r = .node l w r := rfl

theorem relinkFrame_rb (f : AFrame N Color) (t : ATree N Color) : relinkFrame rbClass f t = f := rfl

theorem attached_rb (t : ATree N Color) (fs : List (AFrame N Color)) : attached rbClass t fs = fs := by
  cases fs <;> rfl

section
variable {s : PTree N Color} {fs : List (AFrame N Color)} {hole : Option Addr} {p : Option Addr}

theorem pm_color {l r : ATree N Color} {w : N × (Color × Addr)} (h : PRep s.node p (.node l w r)) :
    pColor (some w.2.2) s = (.ok w.2.1, s) := (pm_bind_ok (pm_node h.1)).trans rfl

theorem forget_isRed_node {l r : ATree N Color} {w : N × (Color × Addr)} :
    (BTree.node l w r).forget.isRed = decide (w.2.1 = .red) := by
  obtain ⟨x, c, a⟩ := w
  cases c <;> rfl

theorem pm_isRed {t : ATree N Color} (h : PRep s.node p t) : pIsRed t.ptr s = (.ok t.forget.isRed, s) := by
  cases t with
  | nil => rfl
  | node l w r =>
    refine (pm_bind_ok (pm_color h)).trans ?_
    rw [forget_isRed_node]; rfl

theorem pm_colorOrBlack {t : ATree N Color} (h : PRep s.node p t) :
    pColorOrBlack t.ptr s = (.ok (if t.forget.isRed then .red else .black), s) := by
  cases t with
  | nil => rfl
  | node l w r =>
    refine (pm_color h).trans ?_
    rw [forget_isRed_node]
    obtain ⟨x, c, a⟩ := w
    cases c <;> rfl

/-- the colour of the node at the root of a subtree is set -/
theorem ZRep.setColor {l r : ATree N Color} {w : N × (Color × Addr)} (Z : ZRep s (.node l w r) fs hole) (c : Color) :
    ∃ nd', pSetColor (some w.2.2) c s = (.ok (), s.put nd') ∧
      ZRep (s.put nd') (.node l (w.1, (c, w.2.2)) r) fs hole := by
  have hn := (List.nodup_append.mp Z.nodup).1
  simp only [BTree.addrs, List.nodup_cons, List.mem_append, not_or] at hn
  refine ⟨_, pm_setNode _ Z.rep.1, Z.change ?_ (List.Perm.refl _).subperm fun b hb => upd_other _ _ ?_⟩
  · refine ⟨by simp, Z.rep.2.1.frame fun a ha => upd_other _ _ ?_, Z.rep.2.2.frame fun a ha => upd_other _ _ ?_⟩
    · rintro rfl; exact hn.1.1 ha
    · rintro rfl; exact hn.1.2 ha
  · rintro rfl; exact hb (by simp [BTree.addrs])

theorem ZRep.rotR {A B D : ATree N Color} {v w : N × (Color × Addr)}
    (Z : ZRep s (.node (.node A v B) w D) fs hole) :
    ∃ nd', pRotateRight rbClass (some w.2.2) s = (.ok (some v.2.2), s.put nd') ∧
      ZRep (s.put nd') (.node A v (.node B w D)) fs hole := by
  obtain ⟨nd', e, R, F⟩ := pm_rotateRight (C := rbClass) Z.rep (List.nodup_append.mp Z.nodup).1
  refine ⟨nd', e, Z.change R (List.Perm.subperm ?_) F⟩
  rw [List.perm_iff_count]
  intro x
  simp only [relinked_rb, BTree.addrs, List.count_cons, List.count_append]; omega

theorem ZRep.rotL {A B D : ATree N Color} {v w : N × (Color × Addr)}
    (Z : ZRep s (.node A v (.node B w D)) fs hole) :
    ∃ nd', pRotateLeft rbClass (some v.2.2) s = (.ok (some w.2.2), s.put nd') ∧
      ZRep (s.put nd') (.node (.node A v B) w D) fs hole := by
  obtain ⟨nd', e, R, F⟩ := pm_rotateLeft (C := rbClass) Z.rep (List.nodup_append.mp Z.nodup).1
  refine ⟨nd', e, Z.change R (List.Perm.subperm ?_) F⟩
  rw [List.perm_iff_count]
  intro x
  simp only [relinked_rb, BTree.addrs, List.count_cons, List.count_append]; omega

end

/-! ## Recolouring -/

section
variable {s : PTree N Color} {fs : List (AFrame N Color)} {hole : Option Addr}

theorem ZRep.upL {t o : ATree N Color} {w : N × (Color × Addr)} (Z : ZRep s t (⟨true, w, o⟩ :: fs) t.ptr) :
    ZRep s (.node t w o) fs (some w.2.2) := Z.up

theorem ZRep.upR {t o : ATree N Color} {w : N × (Color × Addr)} (Z : ZRep s t (⟨false, w, o⟩ :: fs) t.ptr) :
    ZRep s (.node o w t) fs (some w.2.2) := Z.up

theorem recolor2_left {A B D E : ATree N Color} {p g u : N × (Color × Addr)}
    (Z : ZRep s (.node (.node A p B) g (.node D u E)) fs (some g.2.2)) :
    ∃ nd', (do
        pSetColor (some p.2.2) .black
        pSetColor (some u.2.2) .black
        pSetColor (some g.2.2) .red
        return some g.2.2) s = (.ok (some g.2.2), s.put nd') ∧
      ZRep (s.put nd') (.node (.node A (p.1, (.black, p.2.2)) B) (g.1, (.red, g.2.2)) (.node D (u.1, (.black, u.2.2)) E))
        fs (some g.2.2) := by
  obtain ⟨nd1, e1, Z1⟩ := Z.left.setColor .black
  obtain ⟨nd2, e2, Z2⟩ := Z1.upL.right.setColor .black
  obtain ⟨nd3, e3, Z3⟩ := Z2.upR.setColor .red
  exact ⟨nd3, (pm_bind_ok e1).trans <| (pm_bind_ok e2).trans <| (pm_bind_ok e3).trans rfl, Z3⟩

theorem recolor2_right {A B D E : ATree N Color} {p g u : N × (Color × Addr)}
    (Z : ZRep s (.node (.node D u E) g (.node A p B)) fs (some g.2.2)) :
    ∃ nd', (do
        pSetColor (some p.2.2) .black
        pSetColor (some u.2.2) .black
        pSetColor (some g.2.2) .red
        return some g.2.2) s = (.ok (some g.2.2), s.put nd') ∧
      ZRep (s.put nd') (.node (.node D (u.1, (.black, u.2.2)) E) (g.1, (.red, g.2.2)) (.node A (p.1, (.black, p.2.2)) B))
        fs (some g.2.2) := by
  obtain ⟨nd1, e1, Z1⟩ := Z.right.setColor .black
  obtain ⟨nd2, e2, Z2⟩ := Z1.upR.left.setColor .black
  obtain ⟨nd3, e3, Z3⟩ := Z2.upL.setColor .red
  exact ⟨nd3, (pm_bind_ok e1).trans <| (pm_bind_ok e2).trans <| (pm_bind_ok e3).trans rfl, Z3⟩

end

section
variable {s : PTree N Color} {fs : List (AFrame N Color)}

/-- the two questions of `__recolor_case3` -/
theorem case3_start {a b : ATree N Color} {x : N × (Color × Addr)} {f g : AFrame N Color} {Y}
    (Z : ZRep s (.node a x b) (f :: g :: fs) (some x.2.2)) (hf : sideOk f x.1 = true) (hg : sideOk g f.w.1 = true)
    (h : (if g.left ∧ f.left then do
        pSetColor (some g.w.2.2) .red
        pSetColor (some f.w.2.2) .black
        pRotateRight rbClass (some g.w.2.2)
      else if g.left then do
        let parent ← pRotateLeft rbClass (some f.w.2.2)
        pSetLeft rbClass (some g.w.2.2) parent
        pSetColor (some g.w.2.2) .red
        let grand ← pRotateRight rbClass (some g.w.2.2)
        pSetColor grand .black
        return grand
      else if f.left then do
        let parent ← pRotateRight rbClass (some f.w.2.2)
        pSetRight rbClass (some g.w.2.2) parent
        pSetColor (some g.w.2.2) .red
        let grand ← pRotateLeft rbClass (some g.w.2.2)
        pSetColor grand .black
        return grand
      else do
        pSetColor (some g.w.2.2) .red
        pSetColor (some f.w.2.2) .black
        pRotateLeft rbClass (some g.w.2.2)) s = Y) :
    pRecolorCase3 (some x.2.2) s = Y := by
  rw [← h]
  refine (pm_bind_ok (pm_assert _ _)).trans <| (pm_bind_ok (pm_parent Z.rep.1)).trans <|
    (pm_bind_ok (a := some g.w.2.2) (pm_parent Z.ctx.1)).trans <|
    (pm_bind_ok (pm_isLeftChild Z.ctx.1 rfl Z.ctx.2.2.1)).trans <|
    (pm_bind_ok (pm_isLeftChild Z.rep.1 rfl Z.ctx.1)).trans ?_
  have h1 : decide (f.w.1 > x.1) = f.left := by simpa [sideOk] using hf
  have h2 : decide (g.w.1 > f.w.1) = g.left := by simpa [sideOk] using hg
  rw [h1, h2]
  rfl

theorem pm_case3_ll {a b fo go : ATree N Color} {x fw gw : N × (Color × Addr)}
    (Z : ZRep s (.node a x b) (⟨true, fw, fo⟩ :: ⟨true, gw, go⟩ :: fs) (some x.2.2))
    (hf : sideOk (⟨true, fw, fo⟩ : AFrame N Color) x.1 = true)
    (hg : sideOk (⟨true, gw, go⟩ : AFrame N Color) fw.1 = true) :
    ∃ nd', pRecolorCase3 (some x.2.2) s = (.ok (some fw.2.2), s.put nd') ∧
      ZRep (s.put nd') (.node (.node a x b) (fw.1, (.black, fw.2.2)) (.node fo (gw.1, (.red, gw.2.2)) go)) fs
        (some gw.2.2) := by
  have Zp : ZRep s (.node (.node a x b) fw fo) (⟨true, gw, go⟩ :: fs) (some fw.2.2) := Z.upL
  have Zg : ZRep s (.node (.node (.node a x b) fw fo) gw go) fs (some gw.2.2) := Zp.upL
  obtain ⟨nd1, e1, Z1⟩ := Zg.setColor .red
  obtain ⟨nd2, e2, Z2⟩ := Z1.left.setColor .black
  obtain ⟨nd3, e3, Z3⟩ := Z2.upL.rotR
  refine ⟨nd3, case3_start Z hf hg ?_, Z3⟩
  rw [if_pos ⟨rfl, rfl⟩]
  exact (pm_bind_ok e1).trans <| (pm_bind_ok e2).trans e3

theorem pm_case3_rr {a b fo go : ATree N Color} {x fw gw : N × (Color × Addr)}
    (Z : ZRep s (.node a x b) (⟨false, fw, fo⟩ :: ⟨false, gw, go⟩ :: fs) (some x.2.2))
    (hf : sideOk (⟨false, fw, fo⟩ : AFrame N Color) x.1 = true)
    (hg : sideOk (⟨false, gw, go⟩ : AFrame N Color) fw.1 = true) :
    ∃ nd', pRecolorCase3 (some x.2.2) s = (.ok (some fw.2.2), s.put nd') ∧
      ZRep (s.put nd') (.node (.node go (gw.1, (.red, gw.2.2)) fo) (fw.1, (.black, fw.2.2)) (.node a x b)) fs
        (some gw.2.2) := by
  have Zp : ZRep s (.node fo fw (.node a x b)) (⟨false, gw, go⟩ :: fs) (some fw.2.2) := Z.upR
  have Zg : ZRep s (.node go gw (.node fo fw (.node a x b))) fs (some gw.2.2) := Zp.upR
  obtain ⟨nd1, e1, Z1⟩ := Zg.setColor .red
  obtain ⟨nd2, e2, Z2⟩ := Z1.right.setColor .black
  obtain ⟨nd3, e3, Z3⟩ := Z2.upR.rotL
  refine ⟨nd3, case3_start Z hf hg ?_, Z3⟩
  rw [if_neg (by simp), if_neg (by simp), if_neg (by simp)]
  exact (pm_bind_ok e1).trans <| (pm_bind_ok e2).trans e3

theorem pm_case3_lr {a b fo go : ATree N Color} {x fw gw : N × (Color × Addr)}
    (Z : ZRep s (.node a x b) (⟨false, fw, fo⟩ :: ⟨true, gw, go⟩ :: fs) (some x.2.2))
    (hf : sideOk (⟨false, fw, fo⟩ : AFrame N Color) x.1 = true)
    (hg : sideOk (⟨true, gw, go⟩ : AFrame N Color) fw.1 = true) :
    ∃ nd', pRecolorCase3 (some x.2.2) s = (.ok (some x.2.2), s.put nd') ∧
      ZRep (s.put nd') (.node (.node fo fw a) (x.1, (.black, x.2.2)) (.node b (gw.1, (.red, gw.2.2)) go)) fs
        (some gw.2.2) := by
  have Zp : ZRep s (.node fo fw (.node a x b)) (⟨true, gw, go⟩ :: fs) (some fw.2.2) := Z.upR
  obtain ⟨nd1, e1, Z1⟩ := Zp.rotL
  obtain ⟨nd2, e2, Z2⟩ := pm_setChild (C := rbClass) Z1
  rw [relinkFrame_rb] at Z2
  obtain ⟨nd3, e3, Z3⟩ := Z2.upL.setColor .red
  obtain ⟨nd4, e4, Z4⟩ := Z3.rotR
  obtain ⟨nd5, e5, Z5⟩ := Z4.setColor .black
  refine ⟨nd5, case3_start Z hf hg ?_, Z5⟩
  rw [if_neg (by simp), if_pos rfl]
  exact (pm_bind_ok e1).trans <| (pm_bind_ok e2).trans <| (pm_bind_ok e3).trans <| (pm_bind_ok e4).trans <|
    (pm_bind_ok e5).trans rfl

theorem pm_case3_rl {a b fo go : ATree N Color} {x fw gw : N × (Color × Addr)}
    (Z : ZRep s (.node a x b) (⟨true, fw, fo⟩ :: ⟨false, gw, go⟩ :: fs) (some x.2.2))
    (hf : sideOk (⟨true, fw, fo⟩ : AFrame N Color) x.1 = true)
    (hg : sideOk (⟨false, gw, go⟩ : AFrame N Color) fw.1 = true) :
    ∃ nd', pRecolorCase3 (some x.2.2) s = (.ok (some x.2.2), s.put nd') ∧
      ZRep (s.put nd') (.node (.node go (gw.1, (.red, gw.2.2)) a) (x.1, (.black, x.2.2)) (.node b fw fo)) fs
        (some gw.2.2) := by
  have Zp : ZRep s (.node (.node a x b) fw fo) (⟨false, gw, go⟩ :: fs) (some fw.2.2) := Z.upL
  obtain ⟨nd1, e1, Z1⟩ := Zp.rotR
  obtain ⟨nd2, e2, Z2⟩ := pm_setChild (C := rbClass) Z1
  rw [relinkFrame_rb] at Z2
  obtain ⟨nd3, e3, Z3⟩ := Z2.upR.setColor .red
  obtain ⟨nd4, e4, Z4⟩ := Z3.rotL
  obtain ⟨nd5, e5, Z5⟩ := Z4.setColor .black
  refine ⟨nd5, case3_start Z hf hg ?_, Z5⟩
  rw [if_neg (by simp), if_neg (by simp), if_pos rfl]
  exact (pm_bind_ok e1).trans <| (pm_bind_ok e2).trans <| (pm_bind_ok e3).trans <| (pm_bind_ok e4).trans <|
    (pm_bind_ok e5).trans rfl

end

section
variable {s : PTree N Color} {fs : List (AFrame N Color)}

/-- the great-grandparent gets the subtree -/
theorem pm_great {A B : ATree N Color} {y : N × (Color × Addr)} {hole : Option Addr}
    (Z : ZRep s (.node A y B) fs hole) (h : attachOk (forgetAll fs) y.1 = true) :
    ∃ nd' hole', (if (ctxPtr fs).isSome then do
        let d ← pData (ctxPtr fs)
        let e ← pData (some y.2.2)
        if d > e then pSetLeft rbClass (ctxPtr fs) (some y.2.2) else pSetRight rbClass (ctxPtr fs) (some y.2.2)
        return some y.2.2
      else return some y.2.2) s = (.ok (some y.2.2), s.put nd') ∧
      ZRep (s.put nd') (.node A y B) fs hole' ∧ (fs ≠ [] → hole' = some y.2.2) := by
  cases fs with
  | nil => exact ⟨s.node, hole, rfl, Z, by simp⟩
  | cons f fs =>
    obtain ⟨nd', e, Z'⟩ := pm_setChild (C := rbClass) Z
    rw [relinkFrame_rb] at Z'
    refine ⟨nd', some y.2.2, ?_, Z', fun _ => rfl⟩
    have hs : decide (f.w.1 > y.1) = f.left := by simpa [attachOk, forgetAll, sideOk, Above.mapExt] using h
    refine (pm_bind_ok (pm_data Z.ctx.1)).trans <| (pm_bind_ok (pm_data Z.rep.1)).trans ?_
    simp only
    cases hl : f.left with
    | true =>
      rw [hl] at e hs
      simp only [decide_eq_true_eq] at hs
      rw [if_pos hs]
      exact (pm_bind_ok e).trans rfl
    | false =>
      rw [hl] at e hs
      simp only [decide_eq_false_iff_not] at hs
      rw [if_neg hs]
      exact (pm_bind_ok e).trans rfl

end

/-- one step of `__recolor` leaves a node from which the value model goes on -/
def StepOut (m : PM N Color (Option Addr)) (s : PTree N Color) (fs : List (AFrame N Color)) (T : BTree (N × Color)) :
    Prop :=
  ∃ nd' A y B hole', m s = (.ok (some y.2.2), s.put nd') ∧ ZRep (s.put nd') (.node A y B) fs hole' ∧
    (fs ≠ [] → hole' = some y.2.2) ∧
    rbRecolor A.forget (y.1, y.2.1) B.forget (forgetAll fs) = .ok T

theorem pm_recolorStep {s : PTree N Color} {fs : List (AFrame N Color)} {a b : ATree N Color} {x : N × (Color × Addr)}
    {f g : AFrame N Color} (Z : ZRep s (.node a x b) (f :: g :: fs) (some x.2.2)) (hred : f.w.2.1 ≠ .black)
    {T : BTree (N × Color)} (e : rbRecolor a.forget (x.1, x.2.1) b.forget (forgetAll (f :: g :: fs)) = .ok T) :
    sideOk g f.w.1 = true ∧
    StepOut (pRecolorStep (some x.2.2) (some f.w.2.2) (some g.w.2.2) g.other.ptr) s fs T := by
  obtain ⟨fl, fw, fo⟩ := f
  obtain ⟨gl, gw, go⟩ := g
  replace hred : ¬ fw.2.1 = .black := hred
  rw [show forgetAll (⟨fl, fw, fo⟩ :: ⟨gl, gw, go⟩ :: fs) = ⟨fl, (fw.1, fw.2.1), fo.forget⟩ ::
    ⟨gl, (gw.1, gw.2.1), go.forget⟩ :: forgetAll fs from rfl, rbRecolor, if_neg hred] at e
  have hg : sideOk (⟨gl, gw, go⟩ : AFrame N Color) fw.1 = true := by
    by_contra hc
    simp only [Bool.not_eq_true] at hc
    rw [if_pos (show sideOk (⟨gl, (gw.1, gw.2.1), go.forget⟩ : Above N Color) fw.1 = false from hc)] at e
    cases e
  refine ⟨hg, ?_⟩
  rw [if_neg (show ¬ sideOk (⟨gl, (gw.1, gw.2.1), go.forget⟩ : Above N Color) fw.1 = false by
    intro hc; have : sideOk (⟨gl, gw, go⟩ : AFrame N Color) fw.1 = false := hc; simp [this] at hg)] at e
  have hisRed : pIsRed go.ptr s = (.ok go.forget.isRed, s) := pm_isRed Z.ctx.2.2.2.1
  have hstart : ∀ {Y}, (if go.forget.isRed then do
        pSetColor (some fw.2.2) .black
        pSetColor go.ptr .black
        pSetColor (some gw.2.2) .red
        return some gw.2.2
      else pParent (some gw.2.2) >>= fun great => pRecolorCase3 (some x.2.2) >>= fun grand =>
        if great.isSome then do
          let d ← pData great
          let e ← pData grand
          if d > e then pSetLeft rbClass great grand else pSetRight rbClass great grand
          return grand
        else return grand) s = Y →
      pRecolorStep (some x.2.2) (some fw.2.2) (some gw.2.2) go.ptr s = Y := by
    rintro Y rfl
    refine (pm_bind_ok hisRed).trans ?_
    cases go.forget.isRed <;> rfl
  cases hr : go.forget.isRed with
  | true =>
    obtain ⟨D, u, E, rfl⟩ : ∃ D u E, go = .node D u E := by
      cases go with
      | nil => cases hr
      | node D u E => exact ⟨D, u, E, rfl⟩
    rw [if_pos hr] at e
    have hstart' := @hstart
    rw [hr, if_pos rfl] at hstart'
    cases gl <;> cases fl
    · obtain ⟨nd, e1, Z1⟩ := recolor2_right (show ZRep s (.node (.node D u E) gw (.node fo fw (.node a x b))) fs _ from
        (show ZRep s (.node fo fw (.node a x b)) _ _ from Z.upR).upR)
      exact ⟨nd, _, (gw.1, .red, gw.2.2), _, _, hstart' e1, Z1, fun _ => rfl, e⟩
    · obtain ⟨nd, e1, Z1⟩ := recolor2_right (show ZRep s (.node (.node D u E) gw (.node (.node a x b) fw fo)) fs _ from
        (show ZRep s (.node (.node a x b) fw fo) _ _ from Z.upL).upR)
      exact ⟨nd, _, (gw.1, .red, gw.2.2), _, _, hstart' e1, Z1, fun _ => rfl, e⟩
    · obtain ⟨nd, e1, Z1⟩ := recolor2_left (show ZRep s (.node (.node fo fw (.node a x b)) gw (.node D u E)) fs _ from
        (show ZRep s (.node fo fw (.node a x b)) _ _ from Z.upR).upL)
      exact ⟨nd, _, (gw.1, .red, gw.2.2), _, _, hstart' e1, Z1, fun _ => rfl, e⟩
    · obtain ⟨nd, e1, Z1⟩ := recolor2_left (show ZRep s (.node (.node (.node a x b) fw fo) gw (.node D u E)) fs _ from
        (show ZRep s (.node (.node a x b) fw fo) _ _ from Z.upL).upL)
      exact ⟨nd, _, (gw.1, .red, gw.2.2), _, _, hstart' e1, Z1, fun _ => rfl, e⟩
  | false =>
    rw [if_neg (show ¬ go.forget.isRed = true by simp [hr])] at e
    have hf : sideOk (⟨fl, fw, fo⟩ : AFrame N Color) x.1 = true := by
      by_contra hc
      simp only [Bool.not_eq_true] at hc
      rw [if_pos (show sideOk (⟨fl, (fw.1, fw.2.1), fo.forget⟩ : Above N Color) x.1 = false from hc)] at e
      cases e
    rw [if_neg (show ¬ sideOk (⟨fl, (fw.1, fw.2.1), fo.forget⟩ : Above N Color) x.1 = false by
      intro hc; have : sideOk (⟨fl, fw, fo⟩ : AFrame N Color) x.1 = false := hc; simp [this] at hf)] at e
    have fin : ∀ {A B : ATree N Color} {y : N × (Color × Addr)} {nd1},
        pRecolorCase3 (some x.2.2) s = (.ok (some y.2.2), s.put nd1) →
        ZRep (s.put nd1) (.node A y B) fs (some gw.2.2) →
        (if attachOk (forgetAll fs) y.1 then rbRecolor A.forget (y.1, y.2.1) B.forget (forgetAll fs)
          else .error .unmodelled) = .ok T →
        StepOut (pRecolorStep (some x.2.2) (some fw.2.2) (some gw.2.2) go.ptr) s fs T := by
      intro A B y nd1 e1 Z1 ev
      split_ifs at ev with ha
      obtain ⟨nd2, hole', e2, Z2, h2⟩ := pm_great Z1 ha
      refine ⟨nd2, A, y, B, hole', hstart ?_, Z2, h2, ev⟩
      rw [hr, if_neg (by simp)]
      exact (pm_bind_ok (pm_parent Z.ctx.2.2.1)).trans <| (pm_bind_ok e1).trans e2
    cases gl <;> cases fl
    · obtain ⟨nd, e1, Z1⟩ := pm_case3_rr Z hf hg
      exact fin (y := (fw.1, .black, fw.2.2)) e1 Z1 e
    · obtain ⟨nd, e1, Z1⟩ := pm_case3_rl Z hf hg
      exact fin (y := (x.1, .black, x.2.2)) e1 Z1 e
    · obtain ⟨nd, e1, Z1⟩ := pm_case3_lr Z hf hg
      exact fin (y := (x.1, .black, x.2.2)) e1 Z1 e
    · obtain ⟨nd, e1, Z1⟩ := pm_case3_ll Z hf hg
      exact fin (y := (fw.1, .black, fw.2.2)) e1 Z1 e

theorem plug_node_ne {X : Type} (a b : BTree (N × X)) (x : N × X) (fs : List (Above N X)) :
    plug (.node a x b) fs ≠ .nil := by
  induction fs generalizing a b x with
  | nil => simp [plug]
  | cons f fs ih =>
    simp only [plug]
    split <;> exact ih _ _ _

/-- `__recolor` -/
theorem pm_recolor (fuel : Nat) {s : PTree N Color} {fs : List (AFrame N Color)} {a b : ATree N Color}
    {x : N × (Color × Addr)} {hole : Option Addr} (Z : ZRep s (.node a x b) fs hole)
    (hh : fs ≠ [] → hole = some x.2.2) (hf : fs.length < fuel) {T : BTree (N × Color)}
    (e : rbRecolor a.forget (x.1, x.2.1) b.forget (forgetAll fs) = .ok T) :
    ∃ nd' U hole', pRecolor fuel (some x.2.2) s = (.ok U.ptr, s.put nd') ∧ ZRep (s.put nd') U [] hole' ∧
      U.forget = T ∧ U ≠ .nil := by
  induction fuel generalizing s fs a b x hole with
  | zero => omega
  | succ k ih =>
    rcases fs with _ | ⟨f, _ | ⟨g, fs⟩⟩
    · cases e
      refine ⟨s.node, .node a x b, hole, ?_, Z, rfl, by simp⟩
      refine (pm_bind_ok (pm_assert _ _)).trans <| (pm_bind_ok (a := none) ?_).trans <|
        (pm_bind_ok (pm_parent Z.rep.1)).trans rfl
      exact (pm_bind_ok (pm_parent Z.rep.1)).trans rfl
    · obtain rfl := hh (by simp)
      cases e
      refine ⟨s.node, plug (.node a x b) [f], _, ?_, Z.plug, forget_plug _ _, ?_⟩
      · have hpar : pParent (some f.w.2.2) s = (.ok none, s) := pm_parent Z.ctx.1
        have hu : pUncle (some x.2.2) s = (.ok none, s) :=
          (pm_bind_ok (pm_parent Z.rep.1)).trans <| (pm_bind_ok hpar).trans rfl
        refine (pm_bind_ok (pm_assert _ _)).trans <| (pm_bind_ok hu).trans <|
          (pm_bind_ok (pm_parent Z.rep.1)).trans <| (pm_bind_ok hpar).trans ?_
        · show (if (ctxPtr [f]).isNone = true ∨ (none : Option Addr).isNone = true then _ else _ : PM N Color _) s = _
          rw [if_pos (by simp)]
          have := ptr_up (.node a x b) f
          simp only [plug, this]; rfl
      · simp only [plug]; split <;> simp
    · obtain rfl := hh (by simp)
      have hpar := pm_parent (s := s) Z.ctx.1
      by_cases hb : f.w.2.1 = .black
      · rw [show forgetAll (f :: g :: fs) = f.mapExt Prod.fst :: g.mapExt Prod.fst :: forgetAll fs from rfl, rbRecolor,
          if_pos (show (f.mapExt Prod.fst).w.2 = .black from hb)] at e
        cases e
        have hZ := Z.plug
        refine ⟨s.node, plug (.node a x b) (f :: g :: fs), _, ?_, hZ, forget_plug _ _, ?_⟩
        · have hroot : s.root = (plug (.node a x b) (f :: g :: fs)).ptr := hZ.ctx
          have hu : ∃ u, pUncle (some x.2.2) s = (.ok u, s) := by
            have hu' : ∀ c : Bool, ∃ u, (if c then pRight (some g.w.2.2) else pLeft (some g.w.2.2) : PM N Color _) s =
                (.ok u, s) := by
              intro c
              cases c
              · exact ⟨_, pm_left Z.ctx.2.2.1⟩
              · exact ⟨_, pm_right Z.ctx.2.2.1⟩
            obtain ⟨u, hu'⟩ := hu' (decide (g.w.1 > f.w.1))
            exact ⟨u, (pm_bind_ok (pm_parent Z.rep.1)).trans <| (pm_bind_ok (a := some g.w.2.2) hpar).trans <|
              (pm_bind_ok (pm_isLeftChild Z.ctx.1 rfl Z.ctx.2.2.1)).trans hu'⟩
          obtain ⟨u, hu⟩ := hu
          refine (pm_bind_ok (pm_assert _ _)).trans <| (pm_bind_ok hu).trans <|
            (pm_bind_ok (pm_parent Z.rep.1)).trans <| (pm_bind_ok (a := some g.w.2.2) hpar).trans ?_
          show (if (ctxPtr (f :: g :: fs)).isNone = true ∨ (some g.w.2.2 : Option Addr).isNone = true then _ else _ :
            PM N Color _) s = _
          rw [if_neg (by simp [ctxPtr])]
          refine (pm_bind_ok (a := f.w.2.1) ((pm_bind_ok (pm_node Z.ctx.1)).trans rfl)).trans ?_
          rw [if_pos hb, pm_root, hroot]; rfl
        · exact plug_node_ne _ _ _ _
      · obtain ⟨hg, nd1, A, y, B, hole', e1, Z1, h1, e2⟩ := pm_recolorStep Z hb e
        obtain ⟨nd2, U, hole2, e3, Z3, h3, h4⟩ := ih Z1 h1 (by simp at hf; omega) e2
        refine ⟨nd2, U, hole2, ?_, Z3, h3, h4⟩
        have hu : pUncle (some x.2.2) s = (.ok g.other.ptr, s) := by
          refine (pm_bind_ok (pm_parent Z.rep.1)).trans <| (pm_bind_ok (a := some g.w.2.2) hpar).trans <|
            (pm_bind_ok (pm_isLeftChild Z.ctx.1 rfl Z.ctx.2.2.1)).trans ?_
          have hd : decide (g.w.1 > f.w.1) = g.left := by simpa [sideOk] using hg
          simp only [hd]
          have hl := pm_left Z.ctx.2.2.1
          have hr := pm_right Z.ctx.2.2.1
          cases hgl : g.left
          · rw [hgl] at hl; exact hl
          · rw [hgl] at hr; exact hr
        refine (pm_bind_ok (pm_assert _ _)).trans <| (pm_bind_ok hu).trans <|
          (pm_bind_ok (pm_parent Z.rep.1)).trans <| (pm_bind_ok (a := some g.w.2.2) hpar).trans ?_
        show (if (ctxPtr (f :: g :: fs)).isNone = true ∨ (some g.w.2.2 : Option Addr).isNone = true then _ else _ :
          PM N Color _) s = _
        rw [if_neg (by simp [ctxPtr])]
        refine (pm_bind_ok (a := f.w.2.1) ((pm_bind_ok (pm_node Z.ctx.1)).trans rfl)).trans ?_
        rw [if_neg hb]
        exact (pm_bind_ok e1).trans e3

end Extra
