import Verif.Trees.PtrRbReplace

/-!
# `RedBlackTree` on node objects: `remove`
-/

set_option linter.unusedSimpArgs false
set_option linter.unusedSectionVars false

namespace Extra
variable {N : Type} [LinearOrder N]

theorem moved_rb (w u : N × (Color × Addr)) : moved rbClass w u = (u.1, (u.2.1, w.2.2)) := rfl

theorem sinkC_rb (t : ATree N Color) : (sinkC rbClass t).forget = t.forget.sinkAll := by
  induction t with
  | nil => rfl
  | node l w r ihl ihr =>
    cases l with
    | nil =>
      cases r with
      | nil => rfl
      | node a u b =>
        cases a <;> cases b <;>
          simp [sinkC, BTree.forget, mapExt_node, mapExt_nil, BTree.sinkAll, moved_rb, relinked_rb] at ihr ⊢ <;> exact ihr
    | node a u b =>
      cases a <;> cases b <;>
        simp [sinkC, BTree.forget, mapExt_node, mapExt_nil, BTree.sinkAll, moved_rb, relinked_rb] at ihl ⊢ <;> exact ihl

theorem wayOf_forgetAll (fs : List (AFrame N Color)) : wayOf (forgetAll fs) = wayOf fs := by
  induction fs with
  | nil => rfl
  | cons f fs ih =>
    show wayOf (forgetAll fs) ++ [!f.left] = wayOf fs ++ [!f.left]
    rw [ih]

theorem tailVal_cons (hole : BTree (N × Color)) (f : Above N Color) (F : List (Above N Color)) (num : Option N) :
    tailVal hole (f :: F) num =
      if f.left then rbDouble rbRounds hole f.w f.other F (rbDbn num hole f.w f.other) >>= fun u => pure u.blacken
      else rbDouble rbRounds f.other f.w hole F (rbDbn num f.other f.w hole) >>= fun u => pure u.blacken := by
  unfold tailVal
  rw [wayOf, List.dropLast_concat, plug]
  have := plug_descend F (if f.left then .node hole f.w f.other else .node f.other f.w hole) []
  rw [List.append_nil] at this
  rw [this]
  cases f.left <;> rfl

section
variable {s : PTree N Color} {f : AFrame N Color} {fs : List (AFrame N Color)} {hole l r : ATree N Color}
  {x : N × (Color × Addr)}

/-- what `pDbn` finds out about the replacement -/
def ReplIs (s : PTree N Color) : Option Addr → Option N → Prop
  | none, none => True
  | some a, some v => ∃ n, s.node a = some n ∧ n.data = v
  | _, _ => False

theorem pm_dbn (Z : ZRep s (.node l x r) fs (some x.2.2)) {repl : Option Addr} {num : Option N}
    (h : ReplIs s repl num) (h0 : num = none → l = .nil ∨ r = .nil) :
    pDbn (some x.2.2) repl s = (.ok (dbnPtr l x r (rbDbn num l.forget (x.1, x.2.1) r.forget)), s) ∧
      DbnOk l r (rbDbn num l.forget (x.1, x.2.1) r.forget) := by
  rw [pDbn]
  match repl, num, h with
  | none, none, _ =>
    refine ⟨(pm_bind_ok (pm_left Z.rep.1)).trans ?_, trivial⟩
    cases l with
    | nil => rfl
    | node a y b =>
      rcases h0 rfl with h0 | h0
      · cases h0
      · subst h0
        exact (pm_right Z.rep.1).trans rfl
  | some a, some v, h =>
    obtain ⟨n, h1, rfl⟩ := h
    by_cases hlt : n.data < x.1
    · refine ⟨(pm_bind_ok (pm_data h1)).trans <| (pm_bind_ok (pm_data Z.rep.1)).trans ?_, ?_⟩
      · rw [if_pos hlt]
        refine (pm_left Z.rep.1).trans ?_
        cases l <;> simp [rbDbn, hlt, BTree.forget, mapExt_node, mapExt_nil, dbnPtr, BTree.ptr]
      · cases l <;> simp [rbDbn, hlt, BTree.forget, mapExt_node, mapExt_nil, DbnOk]
    · refine ⟨(pm_bind_ok (pm_data h1)).trans <| (pm_bind_ok (pm_data Z.rep.1)).trans ?_, ?_⟩
      · rw [if_neg hlt]
        refine (pm_right Z.rep.1).trans ?_
        cases r <;> simp [rbDbn, hlt, BTree.forget, mapExt_node, mapExt_nil, dbnPtr, BTree.ptr]
      · cases r <;> simp [rbDbn, hlt, BTree.forget, mapExt_node, mapExt_nil, DbnOk]

/-- what follows the transplant -/
theorem pm_tail (Z : ZRep s hole (f :: fs) hole.ptr) {repl : Option Addr} {num : Option N}
    (h : ReplIs s repl num) (h0 : num = none → hole = .nil) :
    LoopOut (do let dbn ← pDbn (some f.w.2.2) repl; pHandleDouble (rbRounds + 1) (some f.w.2.2) dbn) s
      (plug hole.forget (forgetAll (f :: fs))).keys (tailVal hole.forget (forgetAll (f :: fs)) num) := by
  have Z' := ZRep.up Z
  rw [show forgetAll (f :: fs) = ⟨f.left, (f.w.1, f.w.2.1), f.other.forget⟩ :: forgetAll fs from rfl, tailVal_cons, plug]
  cases hf : f.left with
  | true =>
    simp only [hf, if_true] at Z' ⊢
    obtain ⟨e1, h1⟩ := pm_dbn Z' h (fun e => .inl (h0 e))
    exact (pm_handleDouble rbRounds Z' h1).before (pm_bind_ok e1) ⟨rfl, rfl, rfl⟩
  | false =>
    simp only [hf, Bool.false_eq_true, if_false] at Z' ⊢
    obtain ⟨e1, h1⟩ := pm_dbn Z' h (fun e => .inr (h0 e))
    exact (pm_handleDouble rbRounds Z' h1).before (pm_bind_ok e1) ⟨rfl, rfl, rfl⟩

/-! ## The cases of `remove` -/

/-- the node objects after the case distinction of `remove`; `K`: the numbers after the transplant -/
def RemOut (m : PM N Color Unit) (s : PTree N Color) (K : List N) :
    Except Err (BstRes N × BTree (N × Color)) → Prop
  | .ok (.ok (_, w), t) => ∃ s' U, m s = (.ok (), s') ∧ ZRep s' U [] U.ptr ∧ U.forget = t ∧
      s'.length = (if w then s.length else s.length - 1) ∧ s'.warned = (s.warned || w)
  | .ok (.error e, t) => ∃ s' U, m s = (.error e, s') ∧ ZRep s' U [] U.ptr ∧ U.forget = t ∧ s'.length = s.length
  | .error .attributeError => ∃ s' U, m s = (.error .attributeError, s') ∧ ZRep s' U [] U.ptr ∧ U.forget.keys = K ∧
      s'.length = s.length
  | .error _ => True

theorem RemOut.before {m m' : PM N Color Unit} {s' : PTree N Color} {K : List N}
    {e : Except Err (BstRes N × BTree (N × Color))} (h : RemOut m s' K e) (hm : m' s = m s') (k : Kept s s') :
    RemOut m' s K e := by
  unfold RemOut at h ⊢
  split at h
  · obtain ⟨s1, U, e1, Z1, f1, f2, f3⟩ := h
    exact ⟨s1, U, hm.trans e1, Z1, f1, by rw [f2, k.1], by rw [f3, k.2.1]⟩
  · obtain ⟨s1, U, e1, Z1, f1, f2⟩ := h
    exact ⟨s1, U, hm.trans e1, Z1, f1, by rw [f2, k.1]⟩
  · obtain ⟨s1, U, e1, Z1, f1, f2⟩ := h
    exact ⟨s1, U, hm.trans e1, Z1, f1, by rw [f2, k.1]⟩
  · trivial

/-- `__handle_double_black`, then `self._length -= 1` -/
theorem RemOut.of_loop {m : PM N Color Unit} {K : List N} {e : Except Err (BTree (N × Color))} (h : LoopOut m s K e) :
    RemOut (do m; pAddLength (-1)) s K (e >>= fun u => pure (.ok (.unit, false), u)) := by
  unfold LoopOut at h
  split at h
  · obtain ⟨s1, U, e1, Z1, k, f1, -⟩ := h
    refine ⟨{ s1 with length := s1.length + -1 }, U, (pm_bind_ok e1).trans rfl, Z1.congr rfl rfl rfl, f1, ?_, ?_⟩
    · show s1.length + -1 = s.length - 1
      rw [k.1]; rfl
    · show s1.warned = (s.warned || false)
      rw [k.2.1, Bool.or_false]
  · obtain ⟨s1, U, e1, Z1, k, f1⟩ := h
    exact ⟨s1, U, pm_bind_err e1, Z1, f1, k.1⟩
  · rename_i er hne
    cases er <;> trivial

/-- a transplant, then `self._length -= 1` -/
theorem RemOut.of_done {m : PM N Color Unit} {K : List N} {nd : Addr → Option (PNode N Color)} {T : ATree N Color}
    {fs : List (AFrame N Color)} (e : m s = (.ok (), s.put nd)) (Z : ZRep (s.put nd) T fs T.ptr) :
    RemOut (do m; pAddLength (-1)) s K (.ok (.ok (.unit, false), plug T.forget (forgetAll fs))) :=
  ⟨{ s.put nd with length := s.length + -1 }, _, (pm_bind_ok e).trans rfl, Z.plug.congr rfl rfl rfl, forget_plug _ _, rfl,
    (Bool.or_false _).symm⟩


/-- a leaf is removed -/
theorem pm_rbReplace_leaf (Z : ZRep s (.node .nil x .nil) (f :: fs) (some x.2.2)) :
    RemOut (pRbReplace (some x.2.2) none) s (plug .nil (forgetAll (f :: fs))).keys
      (leafVal (x.1, x.2.1) (forgetAll (f :: fs))) := by
  obtain ⟨nd', e, Z'⟩ := pm_transplant_leaf (C := rbClass) Z s.next
  replace Z' : ZRep (s.put nd') .nil (f :: fs) none := Z'
  obtain ⟨k, c, ad⟩ := x
  have ec := pm_color Z.rep
  cases c with
  | red =>
    refine RemOut.of_done (T := .nil) (nd := nd') ?_ Z'
    rw [pRbReplaceCases]
    exact (pm_bind_ok ec).trans <| (pm_bind_ok (m := pNoneOr none .red) (a := true) rfl).trans <|
      (pm_bind_ok (pm_fuel s)).trans e
  | black =>
    have h1 := pm_tail (repl := none) (num := none) (hole := .nil) Z' trivial (fun _ => rfl)
    refine RemOut.of_loop (h1.before ?_ (kept_put s nd'))
    rw [pRbReplaceCases]
    exact (pm_bind_ok ec).trans <| (pm_bind_ok (m := pNoneOr none .black) (a := true) rfl).trans <|
      (pm_bind_ok (pm_parent Z.rep.1)).trans <| (pm_bind_ok (pm_fuel s)).trans <| (pm_bind_ok e).trans rfl

/-- a node with a replacement is removed -/
theorem pm_rbReplace_node {a b o : ATree N Color} {u : N × (Color × Addr)} {sd : Bool} (G : List (AFrame N Color))
    (Z : ZRep s (.node a u b) (G ++ ⟨sd, x, o⟩ :: fs) (some u.2.2)) :
    RemOut (pRbReplace (some x.2.2) (some u.2.2)) s
      (plug (BTree.node a u b).forget.sinkAll (forgetAll G ++ ⟨sd, (u.1, u.2.1), o.forget⟩ :: forgetAll fs)).keys
      (replVal (x.1, x.2.1) sd o.forget (forgetAll fs) a.forget (u.1, u.2.1) b.forget (forgetAll G)) := by
  have hfa : ∀ w : N × (Color × Addr), forgetAll (G ++ ⟨sd, w, o⟩ :: fs) =
      forgetAll G ++ ⟨sd, (w.1, w.2.1), o.forget⟩ :: forgetAll fs := fun w => by
    simp only [forgetAll, List.map_append, List.map_cons]; rfl
  have hfn : (BTree.node a u b).forget = .node a.forget (u.1, u.2.1) b.forget := rfl
  have ec : pColor (some x.2.2) s = (.ok x.2.1, s) := by
    have h1 := ZRep.plugPart (fs := ⟨sd, x, o⟩ :: fs) G Z
    have h2 := ZRep.up h1
    cases sd
    · exact pm_color h2.rep
    · exact pm_color h2.rep
  have ed := pm_color Z.rep
  have epar := pm_parent Z.rep.1
  obtain ⟨k, c, ad⟩ := x
  obtain ⟨m, d, ad'⟩ := u
  cases c with
  | red =>
    cases d with
    | red =>
      obtain ⟨nd', gs, e, Z', hgs, -⟩ := pm_transplant_at (C := rbClass) G Z s.next le_rfl
      rw [attached_rb, ite_self] at hgs
      subst hgs
      have := RemOut.of_done (K := (plug (BTree.node a (m, .red, ad') b).forget.sinkAll
        (forgetAll G ++ ⟨sd, (m, .red), o.forget⟩ :: forgetAll fs)).keys)
        (m := pRbReplaceCases (some ad) (some ad')) (nd := nd') ?_ Z'
      · rw [sinkC_rb, hfa] at this
        exact this
      · rw [pRbReplaceCases]
        exact (pm_bind_ok ec).trans <| (pm_bind_ok (m := pNoneOr (some ad') .red) (a := true)
          ((pm_bind_ok ed).trans rfl)).trans <| (pm_bind_ok (pm_fuel s)).trans e
    | black =>
      refine ⟨s, _, ?_, Z.plug, ?_, rfl⟩
      · rw [pRbReplace, pRbReplaceCases]
        exact pm_bind_err ((pm_bind_ok ec).trans <| (pm_bind_ok (m := pNoneOr (some ad') .red) (a := false)
          ((pm_bind_ok ed).trans rfl)).trans rfl)
      · rw [forget_plug, hfa]; rfl
  | black =>
    cases d with
    | red =>
      obtain ⟨nd0, e0, Z0⟩ := Z.setColor .black
      obtain ⟨nd', gs, e, Z', hgs, -⟩ := pm_transplant_at (C := rbClass) G Z0 s.next le_rfl
      rw [attached_rb, ite_self] at hgs
      subst hgs
      have := RemOut.of_done (s := s) (K := (plug (BTree.node a (m, .red, ad') b).forget.sinkAll
        (forgetAll G ++ ⟨sd, (m, .red), o.forget⟩ :: forgetAll fs)).keys)
        (m := pRbReplaceCases (some ad) (some ad')) (nd := nd') ?_ Z'
      · rw [sinkC_rb, hfa] at this
        have hroot : (BTree.node a (m, (Color.black, ad')) b).forget.sinkAll = (BTree.node a (m, (Color.red, ad')) b).forget.sinkAll := by
          cases a <;> cases b <;> rfl
        rw [hroot] at this
        exact this
      · rw [pRbReplaceCases]
        exact (pm_bind_ok ec).trans <| (pm_bind_ok (m := pNoneOr (some ad') .black) (a := false)
          ((pm_bind_ok ed).trans rfl)).trans <| (pm_bind_ok e0).trans <| (pm_bind_ok (pm_fuel _)).trans e
    | black =>
      obtain ⟨nd', gs, e, Z', hgs, n, hn1, hn2⟩ := pm_transplant_at (C := rbClass) G Z s.next le_rfl
      rw [attached_rb, ite_self] at hgs
      have hpar : ctxPtr (G ++ ⟨sd, (k, .black, ad), o⟩ :: fs) = ctxPtr gs := by
        rw [hgs]; cases G <;> rfl
      have hnum : n.data = (BTree.node a (m, .black, ad') b).forget.sinkAll.top?.getD k := by
        cases hlf : (BTree.node a (m, (Color.black, ad')) b).isLeaf with
        | true =>
          rw [hn2 hlf]
          obtain ⟨rfl, rfl⟩ := isLeaf_iff.mp hlf
          rfl
        | false =>
          have hp := sinkC_ptr (C := rbClass) a b (m, (Color.black, ad')) hlf
          rw [← sinkC_rb]
          cases hsk : sinkC rbClass (.node a (m, (Color.black, ad')) b) with
          | nil => rw [hsk] at hp; cases hp
          | node a1 u1 b1 =>
            rw [hsk] at hp Z'
            have h3 := Z'.rep.1
            have h4 : u1.2.2 = ad' := by simpa [BTree.ptr] using hp
            rw [h4] at h3
            have h5 := Option.some.inj (hn1.symm.trans h3)
            rw [h5]; rfl
      have hg' := hfa (moved rbClass (k, .black, ad) (m, .black, ad'))
      rw [← hgs] at hg'
      cases gs with
      | nil => simp at hgs
      | cons f' gs' =>
        have h1 := pm_tail (repl := some ad') (num := some n.data) Z' ⟨n, hn1, rfl⟩ (fun h => by cases h)
        have := RemOut.of_loop (s := s) (m := pRbReplaceCases (some ad) (some ad')) (h1.before ?_ (kept_put s nd'))
        · rw [sinkC_rb, hg', hnum] at this
          exact this
        · rw [pRbReplaceCases]
          refine (pm_bind_ok ec).trans <| (pm_bind_ok (m := pNoneOr (some ad') .black) (a := true)
            ((pm_bind_ok ed).trans rfl)).trans <| (pm_bind_ok epar).trans <| (pm_bind_ok (pm_fuel s)).trans <|
            (pm_bind_ok e).trans ?_
          show (pDbn (ctxPtr _) _ >>= _) _ = _
          rw [hpar]
          rfl

end

end Extra
