import Verif.Trees.PtrRbInsert

/-!
# `RedBlackTree` on node objects: `__handle_double_black`
-/

set_option linter.unusedSimpArgs false
set_option linter.unusedSectionVars false

namespace Extra
variable {N : Type} [LinearOrder N]

/-- what a step leaves as it is -/
def Kept (s s' : PTree N Color) : Prop := s'.length = s.length ∧ s'.warned = s.warned ∧ s'.next = s.next

theorem Kept.trans {s s' s'' : PTree N Color} (h : Kept s s') (h' : Kept s' s'') : Kept s s'' :=
  ⟨h'.1.trans h.1, h'.2.1.trans h.2.1, h'.2.2.trans h.2.2⟩

theorem kept_put (s : PTree N Color) (nd : Addr → Option (PNode N Color)) : Kept s (s.put nd) := ⟨rfl, rfl, rfl⟩

section
variable {s : PTree N Color} {fs : List (AFrame N Color)} {hole : Option Addr}

theorem attachOk_sides (fs : List (AFrame N Color)) (c : N) : attachOk (forgetAll fs) c = sidesOk fs c := by
  cases fs <;> rfl

theorem pm_attach_rb {l r : ATree N Color} {w : N × (Color × Addr)} (Z : ZRep s (.node l w r) fs hole)
    (hs : attachOk (forgetAll fs) w.1 = true) :
    ∃ s', pAttach rbClass (ctxPtr fs) (some w.2.2) s = (.ok (), s') ∧ ZRep s' (.node l w r) fs (some w.2.2) ∧
      Kept s s' := by
  rw [attachOk_sides] at hs
  obtain ⟨s', e, Z', h1, h2, h3⟩ := pm_attach (C := rbClass) Z hs
  rw [attached_rb] at Z'
  exact ⟨s', e, Z', h2, h3, h1⟩

/-- the last part of the left side -/
theorem pm_case2_left {l a ba bb : ATree N Color} {x y z : N × (Color × Addr)}
    (Z : ZRep s (.node l x (.node a y (.node ba z bb))) fs (some x.2.2)) (hs : attachOk (forgetAll fs) y.1 = true) :
    ∃ s' U, (do
        pSetColor (some y.2.2) (← pColor (some x.2.2))
        pSetColor (some x.2.2) .black
        let sr ← pRight (some y.2.2)
        pSetColor sr .black
        let grand ← pParent (some x.2.2)
        let top ← pRotateLeft rbClass (some x.2.2)
        pAttach rbClass grand top
        pRoot) s = (.ok (BTree.ptr U), s') ∧ ZRep s' U [] U.ptr ∧ Kept s s' ∧
      U.forget = plug (.node (.node l.forget (x.1, .black) a.forget) (y.1, x.2.1)
        (.node ba.forget (z.1, .black) bb.forget)) (forgetAll fs) := by
  obtain ⟨nd1, e1, Z1⟩ := Z.right.setColor x.2.1
  obtain ⟨nd2, e2, Z2⟩ := Z1.upR.setColor .black
  obtain ⟨nd3, e3, Z3⟩ := Z2.right.right.setColor .black
  have Z3' := Z3.upR
  have Z4 := Z3'.upR
  obtain ⟨nd5, e5, Z5⟩ := Z4.rotL
  obtain ⟨s6, e6, Z6, k6⟩ := pm_attach_rb Z5 hs
  have Z7 := Z6.plug
  refine ⟨s6, _, (pm_bind_ok (pm_color Z.rep)).trans <| (pm_bind_ok e1).trans <| (pm_bind_ok e2).trans <|
    (pm_bind_ok (pm_right Z2.rep.2.2.1)).trans <| (pm_bind_ok e3).trans <| (pm_bind_ok (pm_parent Z4.rep.1)).trans <|
    (pm_bind_ok e5).trans <| (pm_bind_ok e6).trans ?_, Z7, (kept_put s nd5).trans k6, forget_plug _ _⟩
  rw [pm_root, Z7.root rfl]

/-- the last part of the right side -/
theorem pm_case2_right {b aa ab r : ATree N Color} {x y z : N × (Color × Addr)}
    (Z : ZRep s (.node (.node (.node aa z ab) y b) x r) fs (some x.2.2)) (hs : attachOk (forgetAll fs) y.1 = true) :
    ∃ s' U, (do
        pSetColor (some y.2.2) (← pColor (some x.2.2))
        pSetColor (some x.2.2) .black
        let sl ← pLeft (some y.2.2)
        pSetColor sl .black
        let grand ← pParent (some x.2.2)
        let top ← pRotateRight rbClass (some x.2.2)
        pAttach rbClass grand top
        pRoot) s = (.ok (BTree.ptr U), s') ∧ ZRep s' U [] U.ptr ∧ Kept s s' ∧
      U.forget = plug (.node (.node aa.forget (z.1, .black) ab.forget) (y.1, x.2.1)
        (.node b.forget (x.1, .black) r.forget)) (forgetAll fs) := by
  obtain ⟨nd1, e1, Z1⟩ := Z.left.setColor x.2.1
  obtain ⟨nd2, e2, Z2⟩ := Z1.upL.setColor .black
  obtain ⟨nd3, e3, Z3⟩ := Z2.left.left.setColor .black
  have Z3' := Z3.upL
  have Z4 := Z3'.upL
  obtain ⟨nd5, e5, Z5⟩ := Z4.rotR
  obtain ⟨s6, e6, Z6, k6⟩ := pm_attach_rb Z5 hs
  have Z7 := Z6.plug
  refine ⟨s6, _, (pm_bind_ok (pm_color Z.rep)).trans <| (pm_bind_ok e1).trans <| (pm_bind_ok e2).trans <|
    (pm_bind_ok (pm_left Z2.rep.2.1.1)).trans <| (pm_bind_ok e3).trans <| (pm_bind_ok (pm_parent Z4.rep.1)).trans <|
    (pm_bind_ok e5).trans <| (pm_bind_ok e6).trans ?_, Z7, (kept_put s nd5).trans k6, forget_plug _ _⟩
  rw [pm_root, Z7.root rfl]

/-- what is left of one round, from the look at the children of the sibling on -/
def FixOut (m : PM N Color (Option Addr)) (s : PTree N Color) (a : Addr) (K : List N) : DbStep N → Prop
  | .done t => ∃ s' U, m s = (.ok (BTree.ptr U), s') ∧ ZRep s' U [] U.ptr ∧ Kept s s' ∧ U.forget = t ∧ t ≠ .nil
  | .again l x r fs => ∃ s' L w R ws, m s = (.ok (some a), s') ∧ w.2.2 = a ∧ ZRep s' (.node L w R) ws (some a) ∧
      Kept s s' ∧ L.forget = l ∧ (w.1, w.2.1) = x ∧ R.forget = r ∧ forgetAll ws = fs ∧
      (plug (.node l x r) fs).keys = K

theorem pm_fixLeft {l r : ATree N Color} {x : N × (Color × Addr)} (Z : ZRep s (.node l x r) fs (some x.2.2))
    {d : DbStep N} (e : rbFixLeft l.forget (x.1, x.2.1) r.forget (forgetAll fs) = .ok d) :
    FixOut (pFixLeft (some x.2.2) r.ptr) s x.2.2 (plug (BTree.node l x r).forget (forgetAll fs)).keys d := by
  cases r with
  | nil => cases e
  | node a y b =>
    have start : ∀ {Y}, (if a.forget.isRed = false ∧ b.forget.isRed = false then do
          pSetColor (some y.2.2) .red
          return some x.2.2
        else do
          let sibling ← (if b.forget.isRed = false then do
              pSetColor a.ptr .black
              pSetColor (some y.2.2) .red
              let top ← pRotateRight rbClass (some y.2.2)
              pAttach rbClass (some x.2.2) top
              pRight (some x.2.2)
            else PM.pure (some y.2.2))
          pSetColor sibling (← pColor (some x.2.2))
          pSetColor (some x.2.2) .black
          let sr ← pRight sibling
          pSetColor sr .black
          let grand ← pParent (some x.2.2)
          let top ← pRotateLeft rbClass (some x.2.2)
          pAttach rbClass grand top
          pRoot) s = Y → pFixLeft (some x.2.2) (some y.2.2) s = Y := by
      rintro Y rfl
      refine (pm_bind_ok (pm_left Z.rep.2.2.1)).trans <| (pm_bind_ok (pm_right Z.rep.2.2.1)).trans <|
        (pm_bind_ok (pm_colorOrBlack Z.rep.2.2.2.1)).trans <| (pm_bind_ok (pm_colorOrBlack Z.rep.2.2.2.2)).trans ?_
      cases a.forget.isRed <;> cases b.forget.isRed <;> rfl
    rw [show (BTree.node a y b).forget = .node a.forget (y.1, y.2.1) b.forget from rfl] at e
    simp only [rbFixLeft] at e
    split_ifs at e with h1 h2 h3
    · cases e
      obtain ⟨nd1, e1, Z1⟩ := Z.right.setColor .red
      refine ⟨_, _, x, _, fs, start ?_, rfl, Z1.upR, kept_put _ _, rfl, rfl, rfl, rfl, ?_⟩
      swap
      · exact plug_keys_congr _ (by simp [BTree.forget, mapExt_node])
      rw [if_pos h1]
      exact (pm_bind_ok e1).trans rfl
    · cases e
      cases b with
      | nil => cases h2
      | node ba z bb =>
        obtain ⟨s', U, e1, Z1, k1, f1⟩ := pm_case2_left Z h3
        refine ⟨s', U, start ?_, Z1, k1, f1, plug_node_ne _ _ _ _⟩
        rw [if_neg h1, if_neg (show ¬ (BTree.node ba z bb).forget.isRed = false by simp [h2])]
        exact (pm_bind_ok (a := some y.2.2) rfl).trans e1
    · cases a with
      | nil => cases e
      | node aa u ab =>
        rw [show (BTree.node aa u ab).forget = .node aa.forget (u.1, u.2.1) ab.forget from rfl] at e
        simp only at e
        split_ifs at e with h4
        cases e
        obtain ⟨nd1, e1, Z1⟩ := Z.right.left.setColor .black
        obtain ⟨nd2, e2, Z2⟩ := Z1.upL.setColor .red
        obtain ⟨nd3, e3, Z3⟩ := Z2.rotR
        obtain ⟨s4, e4, Z4, k4⟩ := pm_attach_rb Z3 (show attachOk (forgetAll (⟨false, x, l⟩ :: fs)) u.1 = true from h4.1)
        have Z5 := Z4.upR
        obtain ⟨s', U, e6, Z6, k6, f6⟩ := pm_case2_left Z5 (show attachOk (forgetAll fs) u.1 = true from h4.2)
        refine ⟨s', U, start ?_, Z6, ((kept_put s nd3).trans k4).trans k6, f6, plug_node_ne _ _ _ _⟩
        rw [if_neg h1, if_pos (show b.forget.isRed = false by simpa using h2)]
        refine (pm_bind_ok ((pm_bind_ok e1).trans <| (pm_bind_ok e2).trans <| (pm_bind_ok e3).trans <|
          (pm_bind_ok e4).trans <| pm_right Z5.rep.1)).trans e6

theorem pm_fixRight {l r : ATree N Color} {x : N × (Color × Addr)} (Z : ZRep s (.node l x r) fs (some x.2.2))
    {d : DbStep N} (e : rbFixRight l.forget (x.1, x.2.1) r.forget (forgetAll fs) = .ok d) :
    FixOut (pFixRight (some x.2.2) l.ptr) s x.2.2 (plug (BTree.node l x r).forget (forgetAll fs)).keys d := by
  cases l with
  | nil => cases e
  | node a y b =>
    have start : ∀ {Y}, (if b.forget.isRed = false ∧ b.forget.isRed = false then do
          pSetColor (some y.2.2) .red
          return some x.2.2
        else do
          let sibling ← (if a.forget.isRed = false then do
              pSetColor b.ptr .black
              pSetColor (some y.2.2) .red
              let top ← pRotateLeft rbClass (some y.2.2)
              pAttach rbClass (some x.2.2) top
              pLeft (some x.2.2)
            else PM.pure (some y.2.2))
          pSetColor sibling (← pColor (some x.2.2))
          pSetColor (some x.2.2) .black
          let sl ← pLeft sibling
          pSetColor sl .black
          let grand ← pParent (some x.2.2)
          let top ← pRotateRight rbClass (some x.2.2)
          pAttach rbClass grand top
          pRoot) s = Y → pFixRight (some x.2.2) (some y.2.2) s = Y := by
      rintro Y rfl
      refine (pm_bind_ok (pm_left Z.rep.2.1.1)).trans <| (pm_bind_ok (pm_right Z.rep.2.1.1)).trans <|
        (pm_bind_ok (pm_colorOrBlack Z.rep.2.1.2.1)).trans <| (pm_bind_ok (pm_colorOrBlack Z.rep.2.1.2.2)).trans ?_
      cases a.forget.isRed <;> cases b.forget.isRed <;> rfl
    rw [show (BTree.node a y b).forget = .node a.forget (y.1, y.2.1) b.forget from rfl] at e
    simp only [rbFixRight] at e
    split_ifs at e with h1 h2 h3
    · cases e
      obtain ⟨nd1, e1, Z1⟩ := Z.left.setColor .red
      refine ⟨_, _, x, _, fs, start ?_, rfl, Z1.upL, kept_put _ _, rfl, rfl, rfl, rfl, ?_⟩
      swap
      · exact plug_keys_congr _ (by simp [BTree.forget, mapExt_node])
      rw [if_pos h1]
      exact (pm_bind_ok e1).trans rfl
    · cases e
      cases a with
      | nil => cases h2
      | node aa z ab =>
        obtain ⟨s', U, e1, Z1, k1, f1⟩ := pm_case2_right Z h3
        refine ⟨s', U, start ?_, Z1, k1, f1, plug_node_ne _ _ _ _⟩
        rw [if_neg h1, if_neg (show ¬ (BTree.node aa z ab).forget.isRed = false by simp [h2])]
        exact (pm_bind_ok (a := some y.2.2) rfl).trans e1
    · cases b with
      | nil => cases e
      | node ba u bb =>
        rw [show (BTree.node ba u bb).forget = .node ba.forget (u.1, u.2.1) bb.forget from rfl] at e
        simp only at e
        split_ifs at e with h4
        cases e
        obtain ⟨nd1, e1, Z1⟩ := Z.left.right.setColor .black
        obtain ⟨nd2, e2, Z2⟩ := Z1.upR.setColor .red
        obtain ⟨nd3, e3, Z3⟩ := Z2.rotL
        obtain ⟨s4, e4, Z4, k4⟩ := pm_attach_rb Z3 (show attachOk (forgetAll (⟨true, x, r⟩ :: fs)) u.1 = true from h4.1)
        have Z5 := Z4.upL
        obtain ⟨s', U, e6, Z6, k6, f6⟩ := pm_case2_right Z5 (show attachOk (forgetAll fs) u.1 = true from h4.2)
        refine ⟨s', U, start ?_, Z6, ((kept_put s nd3).trans k4).trans k6, f6, plug_node_ne _ _ _ _⟩
        rw [if_neg h1, if_pos (show a.forget.isRed = false by simpa using h2)]
        refine (pm_bind_ok ((pm_bind_ok e1).trans <| (pm_bind_ok e2).trans <| (pm_bind_ok e3).trans <|
          (pm_bind_ok e4).trans <| pm_left Z5.rep.1)).trans e6

theorem fixLeft_error {l r : BTree (N × Color)} {x : N × Color} {fs : List (Above N Color)}
    (e : rbFixLeft l x r fs = .error .attributeError) : r = .nil := by
  cases r with
  | nil => rfl
  | node a y b =>
    simp only [rbFixLeft] at e
    split_ifs at e with h1 h2 h3
    · cases e
    cases a with
    | nil => exact absurd ⟨rfl, by simpa using h2⟩ h1
    | node aa u ab => simp only at e; split_ifs at e; cases e

theorem fixRight_error {l r : BTree (N × Color)} {x : N × Color} {fs : List (Above N Color)}
    (e : rbFixRight l x r fs = .error .attributeError) : l = .nil := by
  cases l with
  | nil => rfl
  | node a y b =>
    simp only [rbFixRight] at e
    split_ifs at e with h1 h2 h3
    · cases e
    cases b with
    | nil => exact absurd ⟨rfl, rfl⟩ h1
    | node aa u ab => simp only at e; split_ifs at e; cases e

/-- case IV of the left side, or nothing -/
theorem pm_siblingLeft {l r : ATree N Color} {x : N × (Color × Addr)} (Z : ZRep s (.node l x r) fs (some x.2.2))
    (e : rbLeft l.forget (x.1, x.2.1) r.forget (forgetAll fs) ≠ .error .unmodelled) :
    ∃ s' c r' fs', pSiblingLeft (some x.2.2) s = (.ok (some x.2.2, BTree.ptr r'), s') ∧
      ZRep s' (.node l (x.1, (c, x.2.2)) r') fs' (some x.2.2) ∧ Kept s s' ∧
      rbLeft l.forget (x.1, x.2.1) r.forget (forgetAll fs) = rbFixLeft l.forget (x.1, c) r'.forget (forgetAll fs') ∧
      (plug (BTree.node l (x.1, (c, x.2.2)) r').forget (forgetAll fs')).keys =
        (plug (BTree.node l x r).forget (forgetAll fs)).keys := by
  have hR : pRight (some x.2.2) s = (.ok r.ptr, s) := pm_right Z.rep.1
  have start := (pm_bind_ok (f := fun sibling => pIsRed sibling >>= fun b => if b then do
      pSetColor sibling .black
      pSetColor (some x.2.2) .red
      let grand ← pParent (some x.2.2)
      let top ← pRotateLeft rbClass (some x.2.2)
      pAttach rbClass grand top
      let parent ← pLeft top
      let sibling ← pRight parent
      return (parent, sibling)
    else (return (some x.2.2, sibling) : PM N Color _)) hR).trans (pm_bind_ok (pm_isRed Z.rep.2.2))
  by_cases hr : r.forget.isRed = true
  · rw [hr] at start
    obtain ⟨sl, y, sr, rfl⟩ : ∃ D u E, r = .node D u E := by
      cases r with
      | nil => cases hr
      | node D u E => exact ⟨D, u, E, rfl⟩
    rw [forget_isRed_node, decide_eq_true_iff] at hr
    have hv : rbLeft l.forget (x.1, x.2.1) (BTree.node sl y sr).forget (forgetAll fs) =
        if attachOk (forgetAll fs) y.1 then
          rbFixLeft l.forget (x.1, .red) sl.forget (⟨true, (y.1, .black), sr.forget⟩ :: forgetAll fs)
        else .error .unmodelled := by
      rw [show (BTree.node sl y sr).forget = .node sl.forget (y.1, y.2.1) sr.forget from rfl, hr]; rfl
    rw [hv] at e ⊢
    by_cases ha : attachOk (forgetAll fs) y.1 = true
    · rw [if_pos ha]
      obtain ⟨nd1, e1, Z1⟩ := Z.right.setColor .black
      obtain ⟨nd2, e2, Z2⟩ := Z1.upR.setColor .red
      obtain ⟨nd3, e3, Z3⟩ := Z2.rotL
      obtain ⟨s4, e4, Z4, k4⟩ := pm_attach_rb Z3 ha
      have Z5 := Z4.left
      refine ⟨s4, .red, sl, _, start.trans ?_, Z5, (kept_put s nd3).trans k4, rfl, ?_⟩
      · exact (pm_bind_ok e1).trans <| (pm_bind_ok e2).trans <| (pm_bind_ok (pm_parent Z2.rep.1)).trans <|
          (pm_bind_ok e3).trans <| (pm_bind_ok e4).trans <| (pm_bind_ok (pm_left Z4.rep.1)).trans <|
          (pm_bind_ok (pm_right Z4.rep.2.1.1)).trans rfl
      · exact plug_keys_congr (forgetAll fs) (by simp [BTree.forget, mapExt_node, Above.mapExt])
    · rw [if_neg ha] at e; exact absurd rfl e
  · have hr' : r.forget.isRed = false := by simpa using hr
    rw [hr'] at start
    refine ⟨s, x.2.1, r, fs, start.trans rfl, Z, ⟨rfl, rfl, rfl⟩, ?_, rfl⟩
    cases r with
    | nil => rfl
    | node sl y sr =>
      rw [forget_isRed_node, decide_eq_false_iff_not] at hr'
      obtain ⟨y, c, a⟩ := y
      cases c
      · rfl
      · exact absurd rfl hr'

/-- case IV of the right side, or nothing -/
theorem pm_siblingRight {l r : ATree N Color} {x : N × (Color × Addr)} (Z : ZRep s (.node l x r) fs (some x.2.2))
    (e : rbRight l.forget (x.1, x.2.1) r.forget (forgetAll fs) ≠ .error .unmodelled) :
    ∃ s' c l' fs', pSiblingRight (some x.2.2) s = (.ok (some x.2.2, BTree.ptr l'), s') ∧
      ZRep s' (.node l' (x.1, (c, x.2.2)) r) fs' (some x.2.2) ∧ Kept s s' ∧
      rbRight l.forget (x.1, x.2.1) r.forget (forgetAll fs) = rbFixRight l'.forget (x.1, c) r.forget (forgetAll fs') ∧
      (plug (BTree.node l' (x.1, (c, x.2.2)) r).forget (forgetAll fs')).keys =
        (plug (BTree.node l x r).forget (forgetAll fs)).keys := by
  have hR : pLeft (some x.2.2) s = (.ok l.ptr, s) := pm_left Z.rep.1
  have start := (pm_bind_ok (f := fun sibling => pIsRed sibling >>= fun b => if b then do
      pSetColor sibling .black
      pSetColor (some x.2.2) .red
      let grand ← pParent (some x.2.2)
      let top ← pRotateRight rbClass (some x.2.2)
      pAttach rbClass grand top
      let parent ← pRight top
      let sibling ← pLeft parent
      return (parent, sibling)
    else (return (some x.2.2, sibling) : PM N Color _)) hR).trans (pm_bind_ok (pm_isRed Z.rep.2.1))
  by_cases hr : l.forget.isRed = true
  · rw [hr] at start
    obtain ⟨sl, y, sr, rfl⟩ : ∃ D u E, l = .node D u E := by
      cases l with
      | nil => cases hr
      | node D u E => exact ⟨D, u, E, rfl⟩
    rw [forget_isRed_node, decide_eq_true_iff] at hr
    have hv : rbRight (BTree.node sl y sr).forget (x.1, x.2.1) r.forget (forgetAll fs) =
        if attachOk (forgetAll fs) y.1 then
          rbFixRight sr.forget (x.1, .red) r.forget (⟨false, (y.1, .black), sl.forget⟩ :: forgetAll fs)
        else .error .unmodelled := by
      rw [show (BTree.node sl y sr).forget = .node sl.forget (y.1, y.2.1) sr.forget from rfl, hr]; rfl
    rw [hv] at e ⊢
    by_cases ha : attachOk (forgetAll fs) y.1 = true
    · rw [if_pos ha]
      obtain ⟨nd1, e1, Z1⟩ := Z.left.setColor .black
      obtain ⟨nd2, e2, Z2⟩ := Z1.upL.setColor .red
      obtain ⟨nd3, e3, Z3⟩ := Z2.rotR
      obtain ⟨s4, e4, Z4, k4⟩ := pm_attach_rb Z3 ha
      have Z5 := Z4.right
      refine ⟨s4, .red, sr, _, start.trans ?_, Z5, (kept_put s nd3).trans k4, rfl, ?_⟩
      · exact (pm_bind_ok e1).trans <| (pm_bind_ok e2).trans <| (pm_bind_ok (pm_parent Z2.rep.1)).trans <|
          (pm_bind_ok e3).trans <| (pm_bind_ok e4).trans <| (pm_bind_ok (pm_right Z4.rep.1)).trans <|
          (pm_bind_ok (pm_left Z4.rep.2.2.1)).trans rfl
      · exact plug_keys_congr (forgetAll fs) (by simp [BTree.forget, mapExt_node, Above.mapExt])
    · rw [if_neg ha] at e; exact absurd rfl e
  · have hr' : l.forget.isRed = false := by simpa using hr
    rw [hr'] at start
    refine ⟨s, x.2.1, l, fs, start.trans rfl, Z, ⟨rfl, rfl, rfl⟩, ?_, rfl⟩
    cases l with
    | nil => rfl
    | node sl y sr =>
      rw [forget_isRed_node, decide_eq_false_iff_not] at hr'
      obtain ⟨y, c, a⟩ := y
      cases c
      · rfl
      · exact absurd rfl hr'

/-- the root, seen from below -/
theorem plug_ptr {X : Type} (t : ATree N X) (fs : List (AFrame N X)) (h : fs ≠ []) :
    ∃ a ∈ ctxAddrs fs, (plug t fs).ptr = some a := by
  induction fs generalizing t with
  | nil => exact absurd rfl h
  | cons f fs ih =>
    rw [plug]
    by_cases hf : fs = []
    · subst hf
      exact ⟨f.w.2.2, by simp [ctxAddrs], ptr_up t f⟩
    · obtain ⟨a, h1, h2⟩ := ih (if f.left then .node t f.w f.other else .node f.other f.w t) hf
      exact ⟨a, by simp [ctxAddrs, h1], h2⟩

theorem ptr_mem {X : Type} {t : ATree N X} {a : Addr} (h : t.ptr = some a) : a ∈ t.addrs := by
  cases t with
  | nil => cases h
  | node l w r => simp only [BTree.ptr, Option.some.injEq] at h; simp [BTree.addrs, h]

/-- `double_black_node` as a link -/
def dbnPtr (l : ATree N Color) (x : N × (Color × Addr)) (r : ATree N Color) : Dbn → Option Addr
  | .none => none
  | .left => l.ptr
  | .right => r.ptr
  | .parent => some x.2.2

/-- `double_black_node` is a child only if there is one -/
def DbnOk {V : Type} (l r : BTree V) : Dbn → Prop
  | .none => True
  | .left => l ≠ .nil
  | .right => r ≠ .nil
  | .parent => True

theorem root_ne_child {l r : ATree N Color} {x : N × (Color × Addr)} (Z : ZRep s (.node l x r) fs (some x.2.2))
    {a : Addr} (ha : a ∈ l.addrs ∨ a ∈ r.addrs) : some a ≠ s.root := by
  have hroot : s.root = (plug (.node l x r) fs).ptr := Z.plug.ctx
  have hn := Z.nodup
  simp only [BTree.addrs, List.nodup_append, List.nodup_cons, List.mem_append, List.mem_cons] at hn
  rw [hroot]
  by_cases hf : fs = []
  · subst hf
    intro hc
    simp only [plug, BTree.ptr, Option.some.injEq] at hc
    subst hc
    grind
  · obtain ⟨b, h1, h2⟩ := plug_ptr (.node l x r) fs hf
    rw [h2]
    intro hc
    simp only [Option.some.injEq] at hc
    subst hc
    grind

theorem root_eq_self {l r : ATree N Color} {x : N × (Color × Addr)} (Z : ZRep s (.node l x r) fs (some x.2.2)) :
    some x.2.2 = s.root ↔ fs = [] := by
  have hroot : s.root = (plug (.node l x r) fs).ptr := Z.plug.ctx
  have hn := Z.nodup
  simp only [BTree.addrs, List.nodup_append, List.nodup_cons, List.mem_append, List.mem_cons] at hn
  rw [hroot]
  by_cases hf : fs = []
  · subst hf
    simp [plug, BTree.ptr]
  · obtain ⟨b, h1, h2⟩ := plug_ptr (.node l x r) fs hf
    rw [h2]
    simp only [Option.some.injEq, hf, iff_false]
    rintro rfl
    grind

theorem pm_dbStops {l r : ATree N Color} {x : N × (Color × Addr)} (Z : ZRep s (.node l x r) fs (some x.2.2))
    {d : Dbn} (hd : DbnOk l r d) :
    pDbStops (dbnPtr l x r d) s = (.ok (dbStops l.forget (x.1, x.2.1) r.forget (forgetAll fs) d), s) := by
  have child : ∀ {t : ATree N Color} {p}, PRep s.node p t → t ≠ .nil → t.ptr ≠ s.root →
      pDbStops t.ptr s = (.ok t.forget.isRed, s) := by
    intro t p hp hne hr
    cases t with
    | nil => exact absurd rfl hne
    | node a y b =>
      refine (pm_bind_ok (pm_root s)).trans ?_
      rw [if_neg hr, if_neg (by simp [BTree.ptr])]
      refine (pm_bind_ok (pm_color hp)).trans ?_
      rw [forget_isRed_node]
      obtain ⟨y, c, a⟩ := y
      cases c <;> rfl
  have sub : ∀ {t : ATree N Color}, t ≠ .nil → (∀ a, t.ptr = some a → some a ≠ s.root) → t.ptr ≠ s.root := by
    intro t hne h
    cases t with
    | nil => exact absurd rfl hne
    | node a y b => exact h y.2.2 rfl
  cases d with
  | none =>
    refine (pm_bind_ok (pm_root s)).trans ?_
    have hroot : s.root = (plug (.node l x r) fs).ptr := Z.plug.ctx
    rw [if_neg, if_pos (by rfl)]
    · rfl
    · rw [hroot]
      intro hc
      cases hp : plug (BTree.node l x r) fs with
      | nil => exact plug_node_ne _ _ _ _ hp
      | node a y b => rw [hp] at hc; cases hc
  | left => exact child Z.rep.2.1 hd (sub hd fun a ha => root_ne_child Z (Or.inl (ptr_mem ha)))
  | right => exact child Z.rep.2.2 hd (sub hd fun a ha => root_ne_child Z (Or.inr (ptr_mem ha)))
  | parent =>
    rw [dbnPtr]
    refine (pm_bind_ok (pm_root s)).trans ?_
    by_cases hf : fs = []
    · rw [if_pos ((root_eq_self Z).mpr hf)]
      subst hf; rfl
    · rw [if_neg (fun hc => hf ((root_eq_self Z).mp hc)), if_neg (by simp)]
      refine (pm_bind_ok (pm_color Z.rep)).trans ?_
      cases fs with
      | nil => exact absurd rfl hf
      | cons f fs =>
        obtain ⟨y, c, a⟩ := x
        cases c <;> rfl

theorem dbIsLeft_ptr {l r : ATree N Color} {x : N × (Color × Addr)} (Z : ZRep s (.node l x r) fs (some x.2.2))
    {d : Dbn} (hd : DbnOk l r d) : dbnPtr l x r d = l.ptr ↔ dbIsLeft l.forget d = true := by
  have hn := Z.nodup
  simp only [BTree.addrs, List.nodup_append, List.nodup_cons, List.mem_append, List.mem_cons] at hn
  cases d with
  | none => cases l <;> simp [dbnPtr, BTree.ptr, dbIsLeft, BTree.forget, mapExt_nil, mapExt_node]
  | left => simp [dbnPtr, dbIsLeft]
  | right =>
    simp only [dbnPtr, dbIsLeft, Bool.false_eq_true, iff_false]
    intro hc
    cases r with
    | nil => exact hd rfl
    | node a y b =>
      have h1 := ptr_mem hc.symm
      simp only [BTree.addrs, List.mem_cons, List.mem_append] at hn
      grind
  | parent =>
    simp only [dbnPtr, dbIsLeft, Bool.false_eq_true, iff_false]
    intro hc
    have h1 := ptr_mem hc.symm
    grind

/-- what the loop leaves -/
def LoopOut (m : PM N Color Unit) (s : PTree N Color) (K : List N) : Except Err (BTree (N × Color)) → Prop
  | .ok t => ∃ s' U, m s = (.ok (), s') ∧ ZRep s' U [] U.ptr ∧ Kept s s' ∧ U.forget = t ∧ t ≠ .nil
  | .error .attributeError => ∃ s' U, m s = (.error .attributeError, s') ∧ ZRep s' U [] U.ptr ∧ Kept s s' ∧
      U.forget.keys = K
  | .error _ => True

theorem LoopOut.before {m m' : PM N Color Unit} {s s' : PTree N Color} {K : List N} {e : Except Err (BTree (N × Color))}
    (h : LoopOut m s' K e) (hm : m' s = m s') (k : Kept s s') : LoopOut m' s K e := by
  match e, h with
  | .ok t, h => obtain ⟨s1, U, e1, Z1, k1, f1⟩ := h; exact ⟨s1, U, hm.trans e1, Z1, k.trans k1, f1⟩
  | .error .attributeError, h =>
    obtain ⟨s1, U, e1, Z1, k1, f1⟩ := h; exact ⟨s1, U, hm.trans e1, Z1, k.trans k1, f1⟩
  | .error .valueError, _ => trivial
  | .error .typeError, _ => trivial
  | .error .indexError, _ => trivial
  | .error .assertionError, _ => trivial
  | .error .overflowError, _ => trivial
  | .error .unboundLocalError, _ => trivial
  | .error .notImplementedError, _ => trivial
  | .error .keyError, _ => trivial
  | .error .diverge, _ => trivial
  | .error .unmodelled, _ => trivial

theorem pm_dbRound {n : Nat} {s1 : PTree N Color} {l r : ATree N Color} {x : N × (Color × Addr)} {c : Color} {K : List N}
    {m : PM N Color (Option Addr)} {v : Except Err (DbStep N)}
    (ih : ∀ {s : PTree N Color} {fs : List (AFrame N Color)} {l r : ATree N Color} {x : N × (Color × Addr)} {d : Dbn},
      ZRep s (.node l x r) fs (some x.2.2) → DbnOk l r d →
      LoopOut (pDbLoop (n + 1) (some x.2.2) (dbnPtr l x r d)) s (plug (BTree.node l x r).forget (forgetAll fs)).keys
        (rbDouble n l.forget (x.1, x.2.1) r.forget (forgetAll fs) d))
    {fs' : List (AFrame N Color)} (Z1 : ZRep s1 (.node l (x.1, (c, x.2.2)) r) fs' (some x.2.2))
    (hK : (plug (BTree.node l (x.1, (c, x.2.2)) r).forget (forgetAll fs')).keys = K)
    (hok : ∀ d, v = .ok d → FixOut m s1 x.2.2 K d) (herr : v = .error .attributeError → m s1 = (.error .attributeError, s1)) :
    LoopOut (m >>= fun dbn => pDbLoop (n + 1) (some x.2.2) dbn) s1 K (v >>= fun
      | .done t => pure t
      | .again l' x' r' fs' => rbDouble n l' x' r' fs' .parent) := by
  cases v with
  | error e =>
    cases e with
    | attributeError =>
      refine ⟨s1, _, pm_bind_err (herr rfl), Z1.plug, ⟨rfl, rfl, rfl⟩, ?_⟩
      rw [← hK, forget_plug]
    | _ => trivial
  | ok d =>
    have h := hok d rfl
    cases d with
    | done t =>
      obtain ⟨s2, U, e2, Z2, k2, f2⟩ := h
      refine ⟨s2, U, (pm_bind_ok e2).trans ?_, Z2, k2, f2⟩
      refine (pm_bind_ok (a := true) ?_).trans rfl
      refine (pm_bind_ok (pm_root s2)).trans ?_
      rw [if_pos (Z2.root rfl).symm]; rfl
    | again l' x' r' fs'' =>
      obtain ⟨s2, L, w, R, ws, e2, h1, Z2, k2, f1, f2, f3, f4, f5⟩ := h
      subst f1 f2 f3 f4
      rw [← h1] at Z2
      have h3 := ih Z2 (d := .parent) trivial
      rw [h1] at h3
      have f5' : (plug (BTree.node L w R).forget (forgetAll ws)).keys = K := f5
      rw [f5'] at h3
      refine h3.before ?_ k2
      rw [pm_bind_ok e2, dbnPtr, h1]

/-- the loop of `__handle_double_black` -/
theorem pm_dbLoop (n : Nat) {s : PTree N Color} {fs : List (AFrame N Color)} {l r : ATree N Color}
    {x : N × (Color × Addr)} {d : Dbn} (Z : ZRep s (.node l x r) fs (some x.2.2)) (hd : DbnOk l r d) :
    LoopOut (pDbLoop (n + 1) (some x.2.2) (dbnPtr l x r d)) s (plug (BTree.node l x r).forget (forgetAll fs)).keys
      (rbDouble n l.forget (x.1, x.2.1) r.forget (forgetAll fs) d) := by
  induction n generalizing s fs l r x d with
  | zero => trivial
  | succ n ih =>
    have hst := pm_dbStops Z hd
    cases hs : dbStops l.forget (x.1, x.2.1) r.forget (forgetAll fs) d with
    | true =>
      rw [hs] at hst
      rw [rbDouble, if_pos hs]
      exact ⟨s, _, (pm_bind_ok hst).trans rfl, Z.plug, ⟨rfl, rfl, rfl⟩, forget_plug _ _, plug_node_ne _ _ _ _⟩
    | false =>
      rw [hs] at hst
      rw [rbDouble, if_neg (by simp [hs])]
      have hl : pLeft (some x.2.2) s = (.ok l.ptr, s) := pm_left Z.rep.1
      by_cases hil : dbIsLeft l.forget d = true
      · rw [if_pos hil]
        by_cases hu : rbLeft l.forget (x.1, x.2.1) r.forget (forgetAll fs) = .error .unmodelled
        · rw [hu]; trivial
        obtain ⟨s1, c, r', fs', e1, Z1, k1, f1, K1⟩ := pm_siblingLeft Z hu
        rw [f1]
        refine (pm_dbRound ih Z1 K1 (m := pFixLeft (some x.2.2) r'.ptr) (fun d hd => ?_) (fun he => ?_)).before ?_ k1
        · rw [← K1]; exact pm_fixLeft Z1 hd
        · have := forget_nil (fixLeft_error he)
          subst this; rfl
        · refine (pm_bind_ok hst).trans <| (pm_bind_ok hl).trans ?_
          rw [if_pos ((dbIsLeft_ptr Z hd).mpr hil)]
          exact pm_bind_ok e1
      · rw [if_neg hil]
        by_cases hu : rbRight l.forget (x.1, x.2.1) r.forget (forgetAll fs) = .error .unmodelled
        · rw [hu]; trivial
        obtain ⟨s1, c, l', fs', e1, Z1, k1, f1, K1⟩ := pm_siblingRight Z hu
        rw [f1]
        refine (pm_dbRound ih Z1 K1 (m := pFixRight (some x.2.2) l'.ptr) (fun d hd => ?_) (fun he => ?_)).before ?_ k1
        · rw [← K1]; exact pm_fixRight Z1 hd
        · have := forget_nil (fixRight_error he)
          subst this; rfl
        · refine (pm_bind_ok hst).trans <| (pm_bind_ok hl).trans ?_
          rw [if_neg (fun hc => hil ((dbIsLeft_ptr Z hd).mp hc))]
          exact pm_bind_ok e1

theorem LoopOut.trivial_of {m : PM N Color Unit} {s : PTree N Color} {K : List N} {e : Err} (h : e ≠ .attributeError) :
    LoopOut m s K (.error e) := by
  cases e <;> trivial

/-- `__handle_double_black` -/
theorem pm_handleDouble (n : Nat) {s : PTree N Color} {fs : List (AFrame N Color)} {l r : ATree N Color}
    {x : N × (Color × Addr)} {d : Dbn} (Z : ZRep s (.node l x r) fs (some x.2.2)) (hd : DbnOk l r d) :
    LoopOut (pHandleDouble (n + 1) (some x.2.2) (dbnPtr l x r d)) s (plug (BTree.node l x r).forget (forgetAll fs)).keys
      (rbDouble n l.forget (x.1, x.2.1) r.forget (forgetAll fs) d >>= fun u => pure u.blacken) := by
  have h := pm_dbLoop n Z hd
  cases hv : rbDouble n l.forget (x.1, x.2.1) r.forget (forgetAll fs) d with
  | error e =>
    rw [hv] at h
    by_cases he : e = .attributeError
    · subst he
      obtain ⟨s', U, e1, Z1, k1, f1⟩ := h
      exact ⟨s', U, (pm_bind_ok (pm_assert _ _)).trans (pm_bind_err e1), Z1, k1, f1⟩
    · exact LoopOut.trivial_of he
  | ok t =>
    rw [hv] at h
    obtain ⟨s', U, e1, Z1, k1, f1, f2⟩ := h
    cases U with
    | nil => exact absurd f1.symm f2
    | node a y b =>
      obtain ⟨nd2, e2, Z2⟩ := Z1.setColor .black
      have hroot : pRoot s' = (.ok (some y.2.2), s') := by rw [pm_root, Z1.root rfl]; rfl
      refine ⟨_, .node a (y.1, (.black, y.2.2)) b, (pm_bind_ok (pm_assert _ _)).trans <| (pm_bind_ok e1).trans <|
        (pm_bind_ok hroot).trans e2, Z2, k1.trans (kept_put _ _), ?_, ?_⟩
      · rw [← f1]; rfl
      · rw [← f1]; simp [BTree.forget, mapExt_node, BTree.blacken]

end

end Extra
