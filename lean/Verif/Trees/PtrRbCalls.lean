import Verif.Trees.PtrRbRemoval
import Verif.Trees.PtrRbInsert

/-!
# `RedBlackTree` on node objects: the calls
-/

set_option linter.unusedSimpArgs false
set_option linter.unusedSectionVars false

namespace Extra
variable {N : Type} [LinearOrder N]

theorem plug_perm (v : N) {a b : BTree (N × Color)} (F : List (Above N Color)) (h : a.keys.Perm (v :: b.keys)) :
    (plug a F).keys.Perm (v :: (plug b F).keys) := by
  obtain ⟨A, B, hp⟩ := plug_keys F
  rw [hp, hp]
  rw [List.perm_iff_count] at h ⊢
  intro y
  have := h y
  simp only [List.count_append, List.count_cons] at this ⊢
  omega

theorem sinkAll_perm (a b : BTree (N × Color)) (u : N × Color) :
    (BTree.node a u b).keys.Perm (u.1 :: (BTree.node a u b).sinkAll.keys) := by
  suffices h : ∀ t : BTree (N × Color), ∀ a u b, t = .node a u b → t.keys.Perm (u.1 :: t.sinkAll.keys) from h _ _ _ _ rfl
  intro t
  induction t with
  | nil => intro a u b h; cases h
  | node l w r ihl ihr =>
    rintro a u b h
    cases h
    rw [List.perm_iff_count]
    intro y
    cases l with
    | nil =>
      cases r with
      | nil => simp [BTree.sinkAll, BTree.keys, BTree.inorder]
      | node c x d =>
        have := (ihr c x d rfl).count_eq y
        simp only [BTree.sinkAll, BTree.keys_node, BTree.keys_nil, List.nil_append, List.count_append, List.count_cons] at this ⊢
        omega
    | node c x d =>
      have := (ihl c x d rfl).count_eq y
      simp only [BTree.sinkAll, BTree.keys_node, BTree.keys_nil, List.nil_append, List.count_append, List.count_cons] at this ⊢
      omega

theorem repl_perm (a b o : BTree (N × Color)) (u x : N × Color) (sd : Bool) (G F : List (Above N Color)) :
    (plug (.node a u b) (G ++ ⟨sd, x, o⟩ :: F)).keys.Perm
      (x.1 :: (plug (BTree.node a u b).sinkAll (G ++ ⟨sd, u, o⟩ :: F)).keys) := by
  have h := plug_perm u.1 G (sinkAll_perm a b u)
  rw [plug_append, plug_append, plug, plug]
  refine plug_perm _ F ?_
  rw [List.perm_iff_count] at h ⊢
  intro y
  have := h y
  cases sd <;> simp only [Bool.false_eq_true, if_false, if_true, BTree.keys_node, List.count_append, List.count_cons] at this ⊢ <;>
    omega

section
variable {s : PTree N Color}

/-- `remove` from a tree with more than one node or another number -/
theorem pm_rbRemove {T : ATree N Color} (Z : ZRep s T [] T.ptr) (h0 : T ≠ .nil) (v : N)
    (hl : ∀ x, T = .node .nil x .nil → x.1 ≠ v) :
    ∃ K, RemOut (pRbRemove v) s K (rbRemoveTree v T.forget) ∧
      (rbRemoveTree v T.forget = .error .attributeError → T.forget.keys.Perm (v :: K)) := by
  have hsr := forget_search v T
  have Z0 := Z.descend (q := T.search v)
  rw [descend_eq, List.append_nil] at Z0
  have h1 := pm_search v Z.rep h0 (s.next + 1) (Z.length_le.trans (by omega))
  have e0 : pRoot s = (.ok T.ptr, s) := by rw [pm_root, Z.root rfl]
  have hfw := forget_walk T (T.search v)
  cases he : T.walk (T.search v) with
  | nil => exact absurd he (search_walk_ne v T h0)
  | node l x r =>
    rw [he] at Z0 h1 hfw
    have hfw' : T.forget.walk (T.forget.search v) = .node l.forget (x.1, x.2.1) r.forget := by rw [hsr, hfw]; rfl
    have hpl : plug (.node l x r) (T.above (T.search v)) = T := by
      rw [← he]; exact plug_above _ _ (by rw [he]; simp)
    have hab : T.forget.above (T.forget.search v) = forgetAll (T.above (T.search v)) := by rw [hsr, forgetAll_above]
    by_cases hv : x.1 = v
    · have start : pRbRemove v s = pRbReplace (some x.2.2) (choicePtr l r (rbChoice l.forget r.forget)) s := by
        rw [pRbRemove]
        refine (pm_bind_ok (pm_fuel s)).trans <| (pm_bind_ok e0).trans <| (pm_bind_ok h1).trans <|
          (pm_bind_ok (pm_data Z0.rep.1)).trans ?_
        rw [if_neg (by simp [hv])]
        exact (pm_bind_ok (pm_fuel s)).trans
          (pm_bind_ok (pm_rbFindReplacement Z0.rep (s.next + 1) (Z0.length_le.trans (by omega))))
      rcases rbChoice_cases l.forget r.forget with ⟨hc, c1, c2⟩ | ⟨hc, c1⟩ | ⟨hc, c1⟩
      · have c1' := forget_nil c1
        have c2' := forget_nil c2
        subst c1' c2'
        rw [hc, choicePtr] at start
        rw [rbRemoveTree_leaf hfw' hv, hab]
        cases hfs : T.above (T.search v) with
        | nil =>
          rw [hfs, plug] at hpl
          exact absurd hv (hl x hpl.symm)
        | cons f fs =>
          rw [hfs] at Z0 hpl
          refine ⟨_, (pm_rbReplace_leaf Z0).before start ⟨rfl, rfl, rfl⟩, fun _ => ?_⟩
          rw [← hpl, forget_plug, ← hv]
          refine plug_perm _ _ ?_
          simp [BTree.forget, mapExt_node, mapExt_nil, BTree.keys_node]
      · have hr : r ≠ .nil := by rintro rfl; exact c1 rfl
        rw [hc, choicePtr] at start
        cases hu : r.walk r.minPath with
        | nil => exact absurd hu (minPath_walk _ hr)
        | node a u b =>
          rw [hu] at start
          have hu' : r.forget.walk r.forget.minPath = .node a.forget (u.1, u.2.1) b.forget := by
            rw [show r.forget.minPath = r.minPath from mapExt_minPath _ r, forget_walk, hu]; rfl
          have Zr := (Z0.right).descend (q := r.minPath)
          rw [descend_eq, hu] at Zr
          have hra : r.forget.above r.forget.minPath = forgetAll (r.above r.minPath) := by
            rw [show r.forget.minPath = r.minPath from mapExt_minPath _ r, forgetAll_above]
          rw [rbRemoveTree_successor hfw' hv hc hu', hab, hra]
          refine ⟨_, (pm_rbReplace_node _ Zr).before start ⟨rfl, rfl, rfl⟩, fun _ => ?_⟩
          have hT : T.forget = plug (.node a.forget (u.1, u.2.1) b.forget)
              (forgetAll (r.above r.minPath) ++ ⟨false, (x.1, x.2.1), l.forget⟩ :: forgetAll (T.above (T.search v))) := by
            have : plug (.node a u b) (r.above r.minPath ++ ⟨false, x, l⟩ :: T.above (T.search v)) = T := by
              rw [plug_append, ← hu, plug_above _ _ (by rw [hu]; simp)]
              exact hpl
            rw [← this, forget_plug, this]
            simp only [forgetAll, List.map_append, List.map_cons]; rfl
          rw [hT, ← hv]
          exact repl_perm _ _ _ (u.1, u.2.1) (x.1, x.2.1) _ _ _
      · have hr : l ≠ .nil := by rintro rfl; exact c1 rfl
        rw [hc, choicePtr] at start
        cases hu : l.walk l.maxPath with
        | nil => exact absurd hu (maxPath_walk _ hr)
        | node a u b =>
          rw [hu] at start
          have hu' : l.forget.walk l.forget.maxPath = .node a.forget (u.1, u.2.1) b.forget := by
            rw [show l.forget.maxPath = l.maxPath from mapExt_maxPath _ l, forget_walk, hu]; rfl
          have Zr := (Z0.left).descend (q := l.maxPath)
          rw [descend_eq, hu] at Zr
          have hra : l.forget.above l.forget.maxPath = forgetAll (l.above l.maxPath) := by
            rw [show l.forget.maxPath = l.maxPath from mapExt_maxPath _ l, forgetAll_above]
          rw [rbRemoveTree_predecessor hfw' hv hc hu', hab, hra]
          refine ⟨_, (pm_rbReplace_node _ Zr).before start ⟨rfl, rfl, rfl⟩, fun _ => ?_⟩
          have hT : T.forget = plug (.node a.forget (u.1, u.2.1) b.forget)
              (forgetAll (l.above l.maxPath) ++ ⟨true, (x.1, x.2.1), r.forget⟩ :: forgetAll (T.above (T.search v))) := by
            have : plug (.node a u b) (l.above l.maxPath ++ ⟨true, x, r⟩ :: T.above (T.search v)) = T := by
              rw [plug_append, ← hu, plug_above _ _ (by rw [hu]; simp)]
              exact hpl
            rw [← this, forget_plug, this]
            simp only [forgetAll, List.map_append, List.map_cons]; rfl
          rw [hT, ← hv]
          exact repl_perm _ _ _ (u.1, u.2.1) (x.1, x.2.1) _ _ _
    · refine ⟨[], ?_, ?_⟩
      · rw [rbRemoveTree_other hfw' hv]
        refine ⟨{ s with warned := true }, T, ?_, Z.congr rfl rfl rfl, rfl, rfl, by simp⟩
        rw [pRbRemove]
        refine (pm_bind_ok (pm_fuel s)).trans <| (pm_bind_ok e0).trans <| (pm_bind_ok h1).trans <|
          (pm_bind_ok (pm_data Z0.rep.1)).trans ?_
        rw [if_pos hv]
        rfl
      · rw [rbRemoveTree_other hfw' hv]
        intro h; cases h

theorem rbRemoveTree_unit {v : N} {t t' : BTree (N × Color)} {a : BstVal N} {w : Bool}
    (h : rbRemoveTree v t = .ok (.ok (a, w), t')) : a = .unit := by
  unfold rbRemoveTree at h
  simp only at h
  split at h
  · cases h
  · split at h
    · cases h; rfl
    · split at h
      · cases h
      · cases h; rfl
      · cases h; rfl
      · cases h
      · cases h; rfl
      all_goals
        rename_i l x r _ _ _ _ S _ _
        cases hx : rbCase3 v t (BTree.search v t) l r (rbChoice l r) S with
        | error e => rw [hx] at h; cases h
        | ok u => rw [hx] at h; cases h; rfl

/-- `remove` -/
theorem rb_remove {t : Bst N Color} (h : PtrHolds s t) (v : NumArg N) :
    (∀ r t', rbRemoveNum t v = .ok (r, t') → Gives (pRemoveNum pRbRemove v) s r t') ∧
    (rbRemoveNum t v = .error .attributeError →
      ∃ s' t', pCall (pRemoveNum pRbRemove v) s = (.error .attributeError, s') ∧ PtrHolds s' t' ∧
        t'.length = t.length ∧ ∃ n, v = .num n ∧ t.root.keys.Perm (n :: t'.root.keys)) := by
  have h' : PtrHolds { s with warned := false } t := holds_warned h false
  cases v with
  | none => exact ⟨fun r t' e => by cases e; exact gives_ok rfl rfl (holds_warned h' true), fun e => by cases e⟩
  | other => exact ⟨fun r t' e => by cases e; exact gives_ok rfl rfl (holds_warned h' true), fun e => by cases e⟩
  | num v =>
    have hh := h'
    obtain ⟨T, Z, h1, h2⟩ := h'
    obtain ⟨tr, tl⟩ := t
    simp only at h1 h2
    subst h1 h2
    cases T with
    | nil =>
      have e0 : pRoot { s with warned := false } = (.ok none, { s with warned := false }) := by rw [pm_root, Z.root rfl]; rfl
      refine ⟨fun r t' e => ?_, fun e => by cases e⟩
      cases e
      exact gives_ok ((pm_bind_ok e0).trans rfl) rfl (holds_warned hh true)
    | node l w r =>
      have e0 : pRoot { s with warned := false } = (.ok (some w.2.2), { s with warned := false }) := by
        rw [pm_root, Z.root rfl]; rfl
      have start : ∀ {k : PM N Color (BstVal N)}, k = (do
            if ((l.ptr.isNone && r.ptr.isNone) = true ∧ v = w.1) then do
              pSetRoot none
              pAddLength (-1)
              return .unit
            else do
              pRbRemove v
              return .unit) →
          pRemoveNum pRbRemove (.num v) { s with warned := false } = k { s with warned := false } := by
        rintro k rfl
        exact (pm_bind_ok e0).trans <| (pm_bind_ok (pm_isLeaf Z.rep.1)).trans <| (pm_bind_ok (pm_data Z.rep.1)).trans rfl
      by_cases hcond : (l.ptr.isNone && r.ptr.isNone) = true ∧ v = w.1
      · obtain ⟨hlf, hv⟩ := hcond
        obtain ⟨rfl, rfl⟩ : l = .nil ∧ r = .nil := by
          cases l <;> cases r <;> first | exact ⟨rfl, rfl⟩ | simp [BTree.ptr] at hlf
        have hval : rbRemoveNum ⟨(BTree.node .nil w .nil : ATree N Color).forget, s.length⟩ (.num v) =
            .ok (.ok (.unit, false), ⟨.nil, s.length - 1⟩) := by
          simp only [rbRemoveNum, BTree.forget, mapExt_node, mapExt_nil, if_pos hv]
        rw [hval]
        refine ⟨fun r t' e => ?_, fun e => by cases e⟩
        cases e
        refine gives_ok (s' := { s with root := none, length := s.length - 1, warned := false }) ((start rfl).trans ?_) rfl
          ⟨.nil, ⟨?_, trivial, ?_, ?_⟩, rfl, rfl⟩
        · rw [if_pos ⟨rfl, hv⟩]; rfl
        · rfl
        · simp [BTree.addrs, ctxAddrs]
        · simp [BTree.addrs, ctxAddrs]
      · obtain ⟨K, ho, hK⟩ := pm_rbRemove Z (by simp) v (by
          rintro x hx
          cases hx
          intro hv
          exact hcond ⟨rfl, hv.symm⟩)
        have hval : rbRemoveNum ⟨(BTree.node l w r : ATree N Color).forget, s.length⟩ (.num v) =
            (rbRemoveTree v (BTree.node l w r : ATree N Color).forget >>= fun x =>
              pure (x.1, ⟨x.2, match x.1 with | .ok (_, false) => s.length - 1 | _ => s.length⟩)) := by
          cases l with
          | nil =>
            cases r with
            | nil =>
              have hv : v ≠ w.1 := fun hv => hcond ⟨rfl, hv⟩
              have hrt : rbRemoveTree v (BTree.node .nil w .nil : ATree N Color).forget =
                  .ok (.ok (.unit, true), (BTree.node .nil w .nil : ATree N Color).forget) := by
                refine rbRemoveTree_other (x := (w.1, w.2.1)) (l := .nil) (r := .nil) ?_ (Ne.symm hv)
                simp only [BTree.forget, mapExt_node, mapExt_nil, BTree.search, if_neg hv]
                split_ifs <;> rfl
              rw [hrt]
              simp only [rbRemoveNum, BTree.forget, mapExt_node, mapExt_nil, if_neg hv]
              rfl
            | node a u b => rfl
          | node a u b => rfl
        rw [hval]
        have e2 : pRemoveNum pRbRemove (.num v) { s with warned := false } =
            (do pRbRemove v; return .unit : PM N Color (BstVal N)) { s with warned := false } := by
          refine (start rfl).trans ?_
          rw [if_neg hcond]
        generalize hrt : rbRemoveTree v (BTree.node l w r : ATree N Color).forget = rt at *
        refine ⟨fun r' t' e => ?_, fun e => ?_⟩
        · match rt, ho, hrt, e with
          | .ok (.ok (a, wn), t1), ho, hrt, e =>
            have := rbRemoveTree_unit hrt
            subst this
            obtain ⟨s', U, e1, Z1, f1, f2, f3⟩ := ho
            cases wn <;> cases e
            · exact gives_ok (e2.trans ((pm_bind_ok e1).trans rfl)) (by rw [f3]; rfl) ⟨U, Z1, f1, f2⟩
            · exact gives_ok (e2.trans ((pm_bind_ok e1).trans rfl)) (by rw [f3]; rfl) ⟨U, Z1, f1, f2⟩
          | .ok (.error x, t1), ho, hrt, e =>
            obtain ⟨s', U, e1, Z1, f1, f2⟩ := ho
            cases e
            exact gives_error (e2.trans (pm_bind_err e1)) ⟨U, Z1, f1, f2⟩
        · match rt, ho, hrt, e with
          | .error .attributeError, ho, hrt, e =>
            obtain ⟨s', U, e1, Z1, f1, f2⟩ := ho
            refine ⟨s', ⟨U.forget, s.length⟩, ?_, ⟨U, Z1, rfl, f2⟩, rfl, v, rfl, ?_⟩
            · simp only [pCall, e2, pm_bind_err e1]
            · have := hK rfl
              rw [← f1] at this
              exact this

theorem pm_leftBlacks {p : Option Addr} {t : ATree N Color} (h : PRep s.node p t) (fuel : Nat)
    (hf : t.addrs.length + 1 ≤ fuel) : pLeftBlacks fuel t.ptr s = (.ok t.forget.leftBlacks, s) := by
  induction t generalizing p fuel with
  | nil =>
    obtain ⟨m, rfl⟩ : ∃ m, fuel = m + 1 := ⟨fuel - 1, by omega⟩
    rfl
  | node l w r ihl ihr =>
    obtain ⟨m, rfl⟩ : ∃ m, fuel = m + 1 := ⟨fuel - 1, by omega⟩
    simp only [BTree.addrs, List.length_cons, List.length_append] at hf
    rw [pLeftBlacks]
    exact (pm_bind_ok (pm_color h)).trans <| (pm_bind_ok (pm_left h.1)).trans <|
      (pm_bind_ok (ihl h.2.1 m (by omega))).trans rfl

/-- one call: if `RedBlackTree` as a value gives an answer, so do the node objects -/
theorem rb_exec {t : Bst N Color} (h : PtrHolds s t) (op : RbOp N) {r : BstRes N} {t' : Bst N Color}
    (e : rbExec t op = .ok (r, t')) : ∃ s', pRbExec s op = (r, s') ∧ PtrHolds s' t' := by
  cases op with
  | insert v => exact rb_insert h v e
  | remove v => exact (rb_remove h v).1 r t' e
  | contains v => cases e; exact gives_contains h v
  | getMin => cases e; exact gives_getMin h
  | getMax => cases e; exact gives_getMax h
  | len => cases e; exact gives_len h
  | inorder => cases e; exact gives_inorder h
  | blackHeight =>
    cases e
    have h' : PtrHolds { s with warned := false } t := holds_warned h false
    have hh := h'
    obtain ⟨T, Z, h1, h2⟩ := h'
    rw [← h1]
    cases T with
    | nil =>
      have e0 : pRoot { s with warned := false } = (.ok none, { s with warned := false }) := by rw [pm_root, Z.root rfl]; rfl
      exact gives_error ((pm_bind_ok e0).trans rfl) hh
    | node l w r =>
      have e0 : pRoot { s with warned := false } = (.ok (some w.2.2), { s with warned := false }) := by
        rw [pm_root, Z.root rfl]; rfl
      refine gives_ok ((pm_bind_ok e0).trans <| (pm_bind_ok (pm_left Z.rep.1)).trans <| (pm_bind_ok (pm_fuel _)).trans <|
        (pm_bind_ok (pm_leftBlacks Z.rep.2.1 _ ?_)).trans rfl) rfl hh
      have := Z.length_le
      simp only [BTree.addrs, List.length_cons, List.length_append] at this
      exact Nat.succ_le_succ (le_trans (by omega : l.addrs.length ≤ _) this)
  | clear => cases e; exact gives_clear

end

end Extra
