import Verif.Trees.PtrSplayProofs

/-!
# `SplayTree` on node objects: the calls (no property content)
-/

set_option linter.unusedSimpArgs false
set_option linter.unusedSectionVars false

namespace Extra
variable {N X Y : Type} [LinearOrder N]

/-! ## Forgetting the addresses -/

section
variable (f : X → Y)

/-- a node above, with its extension changed -/
def Above.mapExt (a : Above N X) : Above N Y := ⟨a.left, (a.w.1, f a.w.2), a.other.mapExt f⟩

theorem mapExt_above (t : BTree (N × X)) (p : List Bool) :
    (t.mapExt f).above p = (t.above p).map (Above.mapExt f) := by
  induction t generalizing p with
  | nil => rcases p with _ | ⟨_, p⟩ <;> rfl
  | node l w r ihl ihr =>
    rcases p with _ | ⟨_ | _, p⟩ <;> simp [mapExt_node, BTree.above, ihl, ihr, Above.mapExt]

theorem mapExt_sideOk (a : Above N X) (x : N) : sideOk (a.mapExt f) x = sideOk a x := rfl

theorem mapExt_splaying : ∀ (fs : List (Above N X)) (a b : BTree (N × X)) (x : N × X),
    splaying (a.mapExt f) (x.1, f x.2) (b.mapExt f) (fs.map (Above.mapExt f)) =
      (splaying a x b fs).map (BTree.mapExt f)
  | [], a, b, x => rfl
  | [F], a, b, x => by
    simp only [List.map_cons, List.map_nil, splaying]
    rw [show sideOk (Above.mapExt f F) x.1 = sideOk F x.1 from rfl]
    obtain ⟨fl, w, o⟩ := F
    by_cases h : sideOk ⟨fl, w, o⟩ x.1 = true
    · rw [if_pos h, if_pos h]; cases fl <;> rfl
    · rw [if_neg h, if_neg h]; rfl
  | F :: G :: fs, a, b, x => by
    simp only [List.map_cons, splaying]
    rw [show sideOk (Above.mapExt f F) x.1 = sideOk F x.1 from rfl,
      show sideOk (Above.mapExt f G) (Above.mapExt f F).w.1 = sideOk G F.w.1 from rfl]
    obtain ⟨fl, w, o⟩ := F
    obtain ⟨gl, u, c⟩ := G
    by_cases h : sideOk ⟨fl, w, o⟩ x.1 = true ∧ sideOk ⟨gl, u, c⟩ w.1 = true
    · rw [if_pos h, if_pos h]
      cases gl <;> cases fl
      · exact mapExt_splaying fs (.node (.node c u o) w a) b x
      · exact mapExt_splaying fs (.node c u a) (.node b w o) x
      · exact mapExt_splaying fs (.node o w a) (.node b u c) x
      · exact mapExt_splaying fs a (.node b w (.node o u c)) x
    · rw [if_neg h, if_neg h]; rfl

theorem mapExt_splay (t : BTree (N × X)) (p : List Bool) :
    (t.mapExt f).splay p = (t.splay p).map (BTree.mapExt f) := by
  unfold BTree.splay
  rw [descend_eq, descend_eq, mapExt_walk, mapExt_above, List.append_nil, List.append_nil]
  cases t.walk p with
  | nil => rfl
  | node a x b => exact mapExt_splaying f _ a b x

theorem mapExt_minPath (t : BTree (N × X)) : (t.mapExt f).minPath = t.minPath := by
  induction t with
  | nil => rfl
  | node l w r ihl ihr =>
    cases l <;> simp only [mapExt_node, mapExt_nil] at ihl ⊢ <;> simp only [BTree.minPath, ihl]

theorem mapExt_maxPath (t : BTree (N × X)) : (t.mapExt f).maxPath = t.maxPath := by
  induction t with
  | nil => rfl
  | node l w r ihl ihr =>
    cases r <;> simp only [mapExt_node, mapExt_nil] at ihr ⊢ <;> simp only [BTree.maxPath, ihr]

theorem mapExt_replacementPath (t : BTree (N × X)) : (t.mapExt f).replacementPath = t.replacementPath := by
  cases t with
  | nil => rfl
  | node l w r =>
    cases r with
    | nil =>
      cases l with
      | nil => rfl
      | node a u b =>
        have := mapExt_maxPath f (.node a u b)
        simp only [mapExt_node, mapExt_nil] at this ⊢
        simp only [BTree.replacementPath, this]
    | node a u b =>
      have := mapExt_minPath f (.node a u b)
      simp only [mapExt_node, mapExt_nil] at this ⊢
      simp only [BTree.replacementPath, this]

theorem mapExt_lastAccessed (v : N) (t : BTree (N × X)) : (t.mapExt f).lastAccessed v = t.lastAccessed v := by
  unfold BTree.lastAccessed
  rw [mapExt_search, mapExt_dataAt, mapExt_walk, mapExt_replacementPath]

end

/-! ## The way to a node and the nodes above it -/

/-- the way from the root, from the nodes above -/
def wayOf : List (Above N X) → List Bool
  | [] => []
  | f :: fs => wayOf fs ++ [!f.left]

theorem wayOf_append (fs gs : List (Above N X)) : wayOf (fs ++ gs) = wayOf gs ++ wayOf fs := by
  induction fs with
  | nil => simp [wayOf]
  | cons f fs ih => simp [wayOf, ih]

theorem wayOf_above (t : BTree (N × X)) (p : List Bool) (h : t.walk p ≠ .nil) : wayOf (t.above p) = p := by
  induction t generalizing p with
  | nil => rcases p with _ | ⟨_, p⟩ <;> exact absurd rfl h
  | node l w r ihl ihr =>
    rcases p with _ | ⟨_ | _, p⟩
    · rfl
    · simp [BTree.above, wayOf_append, wayOf, ihl p h]
    · simp [BTree.above, wayOf_append, wayOf, ihr p h]

theorem wayOf_insertPath (v : N) (t : BTree (N × X)) : wayOf (t.above (t.insertPath v)) = t.insertPath v := by
  induction t with
  | nil => rfl
  | node l w r ihl ihr =>
    rw [BTree.insertPath]
    split_ifs
    · rfl
    · simp [BTree.above, wayOf_append, wayOf, ihl]
    · simp [BTree.above, wayOf_append, wayOf, ihr]

/-- going down from the root along the nodes above -/
theorem plug_descend (fs : List (Above N X)) (t : BTree (N × X)) (q : List Bool) :
    (plug t fs).descend (wayOf fs ++ q) [] = t.descend q fs := by
  induction fs generalizing t q with
  | nil => rfl
  | cons f fs ih =>
    rw [plug, wayOf, List.append_assoc, ih]
    obtain ⟨d, w, o⟩ := f
    cases d <;> rfl

theorem plug_descend' (fs : List (Above N X)) (l r : BTree (N × X)) (w : N × X) :
    (plug (.node l w r) fs).descend (wayOf fs) [] = (.node l w r, fs) := by
  have := plug_descend fs (.node l w r) []
  rw [List.append_nil] at this
  exact this

/-! ## `_splay` -/

theorem pm_splay {s : PTree N X} {a b : ATree N X} {x : N × (X × Addr)} {fs : List (AFrame N X)} {T : ATree N X}
    (Z : ZRep s (.node a x b) fs (some x.2.2)) (e : splaying a x b fs = .ok T) (fuel : Nat) (hf : s.next ≤ fuel) :
    ∃ s', pSplay (plainClass X) fuel (some x.2.2) s = (.ok (), s') ∧ ZRep s' T [] T.ptr ∧
      s'.length = s.length ∧ s'.warned = s.warned ∧ s'.next = s.next := by
  have hl := ctx_length_le Z
  simp only [BTree.addrs, List.length_cons] at hl
  obtain ⟨nd', h', e1, Z1⟩ := pm_splaying fs fuel Z (fun q hq => by cases hq; exact ⟨_, Z.rep.1⟩) e (by omega)
  refine ⟨{ (s.put nd') with root := T.ptr }, (pm_bind_ok e1).trans rfl, ⟨rfl, Z1.rep, Z1.nodup, Z1.bound⟩, rfl, rfl, rfl⟩

/-- the splayed node is at the root -/
theorem splaying_root : ∀ (fs : List (Above N X)) (a b : BTree (N × X)) (x : N × X) {T : BTree (N × X)},
    splaying a x b fs = .ok T → ∃ a' b', T = .node a' x b'
  | [], a, b, x, T, e => by
    simp only [splaying, Except.ok.injEq] at e
    exact ⟨_, _, e.symm⟩
  | [F], a, b, x, T, e => by
    simp only [splaying] at e
    split_ifs at e
    · exact ⟨_, _, (Except.ok.inj e).symm⟩
    · exact ⟨_, _, (Except.ok.inj e).symm⟩
  | F :: G :: fs, a, b, x, T, e => by
    simp only [splaying] at e
    split at e
    · split at e <;> exact splaying_root fs _ _ x e
    · simp at e

/-! ## The calls -/

/-- a call on the objects gives the result `r` and leaves the tree `t` -/
def Gives (m : PM N X (BstVal N)) (s : PTree N X) (r : BstRes N) (t : Bst N X) : Prop :=
  ∃ s', pCall m s = (r, s') ∧ PtrHolds s' t

theorem gives_ok {m : PM N X (BstVal N)} {s s' : PTree N X} {v : BstVal N} {w : Bool} {t : Bst N X}
    (e : m { s with warned := false } = (.ok v, s')) (hw : s'.warned = w) (h : PtrHolds s' t) :
    Gives m s (.ok (v, w)) t := ⟨s', by simp only [pCall, e, hw], h⟩

theorem gives_error {m : PM N X (BstVal N)} {s s' : PTree N X} {x : Err} {t : Bst N X}
    (e : m { s with warned := false } = (.error x, s')) (h : PtrHolds s' t) :
    Gives m s (.error x) t := ⟨s', by simp only [pCall, e], h⟩

theorem splay_forget {T : ATree N X} {p : List Bool} {a b : ATree N X} {x : N × (X × Addr)} {fs : List (AFrame N X)}
    {S : BTree (N × X)} (hd : T.descend p [] = (.node a x b, fs)) (e : T.forget.splay p = .ok S) :
    ∃ T', splaying a x b fs = .ok T' ∧ T'.forget = S := by
  rw [BTree.forget, mapExt_splay] at e
  unfold BTree.splay at e
  rw [hd] at e
  simp only at e
  cases h : splaying a x b fs with
  | error y => rw [h] at e; simp [Except.map] at e
  | ok T' =>
    rw [h] at e
    exact ⟨T', rfl, Except.ok.inj e⟩

section
variable {s : PTree N Unit} {t : Bst N Unit}

theorem splay_contains (h : PtrHolds s t) (v : NumArg N) {r : BstRes N} {t' : Bst N Unit}
    (e : splayContains t v = .ok (r, t')) : Gives (pSplayContains v) s r t' := by
  have h' : PtrHolds { s with warned := false } t := holds_warned h false
  cases v with
  | none => cases e; exact gives_error rfl h'
  | other => cases e; exact gives_error rfl h'
  | num v =>
    have hh := h'
    obtain ⟨T, Z, h1, h2⟩ := h'
    have hr : pRoot { s with warned := false } = (.ok T.ptr, { s with warned := false }) := by
      rw [pm_root, Z.root rfl]
    cases T with
    | nil =>
      have ht : t.root = .nil := h1.symm
      simp only [splayContains, validNum, ht, Except.ok.injEq, Prod.mk.injEq] at e
      obtain ⟨rfl, rfl⟩ := e
      refine gives_error ?_ hh
      exact (pm_bind_ok (pm_fuel _)).trans <| (pm_bind_ok hr).trans <| pm_bind_err rfl
    | node l w r' =>
      have ht : t.root = .node l.forget (w.1, w.2.1) r'.forget := h1.symm
      have ht' : t.root = (BTree.node l w r').forget := h1.symm
      simp only [splayContains, validNum, ht] at e
      rw [← ht, ht'] at e
      have es := mapExt_search (Prod.fst : Unit × Addr → Unit) v (.node l w r')
      have ed := mapExt_dataAt (Prod.fst : Unit × Addr → Unit) (.node l w r') ((BTree.node l w r').search v)
      simp only [BTree.forget] at e
      simp only [es, ed] at e
      cases hS : ((BTree.node l w r').mapExt (Prod.fst : Unit × Addr → Unit)).splay ((BTree.node l w r').search v) with
      | error y => rw [hS] at e; simp [bind, Except.bind] at e
      | ok S =>
        rw [hS] at e
        simp only [bind, Except.bind, pure, Except.pure, Except.ok.injEq, Prod.mk.injEq] at e
        obtain ⟨rfl, rfl⟩ := e
        obtain ⟨a, x, b, hw⟩ := search_walk v (BTree.node l w r') (by simp)
        have hd : (BTree.node l w r').descend ((BTree.node l w r').search v) [] =
            (.node a x b, (BTree.node l w r').above ((BTree.node l w r').search v)) := by
          rw [descend_eq, hw, List.append_nil]
        obtain ⟨T', e1, hT'⟩ := splay_forget hd hS
        have Z1 := Z.descend (q := (BTree.node l w r').search v)
        rw [hd] at Z1
        obtain ⟨s', e2, Z2, k1, k2, k3⟩ := pm_splay Z1 e1 (s.next + 1) (Nat.le_succ _)
        obtain ⟨a', b', hab⟩ := splaying_root _ _ _ _ e1
        have es := pm_search v Z.rep (by simp) (s.next + 1) (Z.length_le.trans (Nat.le_succ _))
        rw [hw] at es
        have Z2' := Z2
        rw [hab] at Z2'
        refine gives_ok (s' := s') ?_ (by rw [k2]) ⟨T', Z2, hT', k1.trans h2⟩
        refine (pm_bind_ok (pm_fuel _)).trans <| (pm_bind_ok hr).trans <| (pm_bind_ok es).trans <|
          (pm_bind_ok (pm_fuel _)).trans <| (pm_bind_ok e2).trans <| (pm_bind_ok (pm_data Z2'.rep.1)).trans ?_
        simp only [BTree.dataAt, hw, Option.some.injEq]
        rfl

theorem splay_insert (h : PtrHolds s t) (v : NumArg N) {r : BstRes N} {t' : Bst N Unit}
    (e : splayInsert t v = .ok (r, t')) : Gives (pSplayInsert v) s r t' := by
  have h' : PtrHolds { s with warned := false } t := holds_warned h false
  cases v with
  | none => cases e; exact gives_error rfl h'
  | other => cases e; exact gives_error rfl h'
  | num v =>
    obtain ⟨T, Z, h1, h2⟩ := h'
    cases T with
    | nil =>
      have ht : t.root = .nil := h1.symm
      simp only [splayInsert, validNum, ht, Except.ok.injEq, Prod.mk.injEq] at e
      obtain ⟨rfl, rfl⟩ := e
      obtain ⟨s', e', Z', hl, hwn⟩ := pm_insertNum_empty (fun v => do
        let node ← pInsert (plainClass Unit) () (← pFuel) v
        pSplay (plainClass Unit) (← pFuel) node
        return node) () v (Z.root rfl)
      refine gives_ok e' (by rw [hwn]) ⟨_, Z', rfl, ?_⟩
      rw [hl, h2]
    | node l w r' =>
      have ht : t.root = .node l.forget (w.1, w.2.1) r'.forget := h1.symm
      have ht' : t.root = (BTree.node l w r').forget := h1.symm
      have e0 : pRoot { s with warned := false } = (.ok (some w.2.2), { s with warned := false }) := by
        rw [pm_root, Z.root rfl]; rfl
      have hm := mapExt_insertNode (Prod.fst : Unit × Addr → Unit) (v, ((), s.next)) (.node l w r')
      have ei := mapExt_insertPath (Prod.fst : Unit × Addr → Unit) v (.node l w r')
      simp only [splayInsert, validNum, ht] at e
      rw [← ht, ht'] at e
      simp only [BTree.forget] at e
      simp only at hm
      simp only [hm, ei] at e
      have hfin : ∀ (a : Addr) (s1 s2 : PTree N Unit),
          pInsert (plainClass Unit) () (s.next + 1) v { s with warned := false } = (.ok (some a), s1) →
          pSplay (plainClass Unit) (s1.next + 1) (some a) s1 = (.ok (), s2) →
          pSplayInsert (.num v) { s with warned := false } = (.ok .unit, s2) := by
        intro a s1 s2 e1 e2
        refine (pm_bind_ok e0).trans ?_
        exact (pm_bind_ok ((pm_bind_ok (pm_fuel _)).trans <| (pm_bind_ok e1).trans <|
          (pm_bind_ok (pm_fuel _)).trans <| (pm_bind_ok e2).trans rfl)).trans rfl
      by_cases h0 : (BTree.node l w r').walk ((BTree.node l w r').insertPath v) = .nil
      · obtain ⟨s1, e1, Z1, hl, hwn, _⟩ := pm_insert_new (C := plainClass Unit) (x := ()) Z (by simp) h0 (s.next + 1)
          (Nat.le_succ _)
        rw [attached_plain] at Z1
        have hi := insert_above_new (v, ((), s.next)) (.node l w r') h0
        have hp := plug_descend' ((BTree.node l w r').above ((BTree.node l w r').insertPath v)) .nil .nil
          (v, ((), s.next))
        rw [wayOf_insertPath, hi.1] at hp
        simp only [hi.2] at e
        cases hS : (((BTree.node l w r').insertNode (v, ((), s.next))).1.mapExt (Prod.fst : Unit × Addr → Unit)).splay
            ((BTree.node l w r').insertPath v) with
        | error y => rw [hS] at e; simp [bind, Except.bind] at e
        | ok S =>
          rw [hS] at e
          simp only [bind, Except.bind, pure, Except.pure, Except.ok.injEq, Prod.mk.injEq] at e
          obtain ⟨rfl, rfl⟩ := e
          obtain ⟨T', e3, hT'⟩ := splay_forget hp hS
          obtain ⟨s2, e2, Z2, k1, k2, k3⟩ := pm_splay Z1 e3 (s1.next + 1) (Nat.le_succ _)
          refine gives_ok (hfin _ _ _ e1 e2) (by rw [k2, hwn]; rfl) ⟨T', Z2, hT', ?_⟩
          rw [k1, hl]; simp [← h2]
      · obtain ⟨s1, e1, Z1, hl, hwn, _⟩ := pm_insert_found (C := plainClass Unit) (x := ()) Z (by simp) h0 (s.next + 1)
          (Nat.le_succ _)
        have hi := insert_above_found (v, ((), s.next)) (.node l w r') h0
        simp only [hi] at e
        cases hw : (BTree.node l w r').walk ((BTree.node l w r').insertPath v) with
        | nil => exact absurd hw h0
        | node a x b =>
          rw [hw] at e1
          have hd : (BTree.node l w r').descend ((BTree.node l w r').insertPath v) [] =
            (.node a x b, (BTree.node l w r').above ((BTree.node l w r').insertPath v)) := by
            rw [descend_eq, hw, List.append_nil]
          have Z1' := Z1.descend (q := (BTree.node l w r').insertPath v)
          rw [hd] at Z1'
          cases hS : ((BTree.node l w r').mapExt (Prod.fst : Unit × Addr → Unit)).splay
              ((BTree.node l w r').insertPath v) with
          | error y => rw [hS] at e; simp [bind, Except.bind] at e
          | ok S =>
            rw [hS] at e
            simp only [bind, Except.bind, pure, Except.pure, Except.ok.injEq, Prod.mk.injEq] at e
            obtain ⟨rfl, rfl⟩ := e
            obtain ⟨T', e3, hT'⟩ := splay_forget hd hS
            obtain ⟨s2, e2, Z2, k1, k2, k3⟩ := pm_splay Z1' e3 (s1.next + 1) (Nat.le_succ _)
            refine gives_ok (hfin _ _ _ e1 e2) (by rw [k2, hwn]; rfl) ⟨T', Z2, hT', ?_⟩
            rw [k1, hl]; simp [← h2]

/-- the way to the node `_remove` returns -/
theorem removeZ_way (v : N) (T : ATree N X) (hv : T.dataAt (T.search v) = some v) :
    wayOf (removeZ (plainClass X) (T.search v) T).2 = T.search v ++ (T.walk (T.search v)).replacementPath := by
  have hw : T.walk (T.search v) ≠ .nil := by
    intro hc; simp [BTree.dataAt, hc] at hv
  unfold removeZ
  simp only [descend_eq, List.append_nil]
  cases he : T.walk (T.search v) with
  | nil => exact absurd he hw
  | node a u b =>
    by_cases hlf : (BTree.node a u b).isLeaf = true
    · obtain ⟨rfl, rfl⟩ := isLeaf_iff.mp hlf
      rw [if_pos hlf]
      simp [attached_plain, wayOf_above _ _ hw, BTree.replacementPath]
    · rw [if_neg hlf]
      obtain ⟨d, q, a', u', b', hq, hk⟩ := replacementPath_walk a b u (fun hc => hlf (isLeaf_iff.mpr hc))
      have hs := swapAt_descend (plainClass X) hk (T.above (T.search v))
      rw [descend_eq, Prod.mk.injEq] at hs
      have hne : (swapAt (plainClass X) (.node a u b) (d :: q)).walk (d :: q) ≠ .nil := by rw [hs.1]; simp
      have : wayOf ((swapAt (plainClass X) (.node a u b) (d :: q)).above (d :: q) ++ T.above (T.search v)) =
          T.search v ++ d :: q := by
        rw [wayOf_append, wayOf_above _ _ hne, wayOf_above _ _ hw]
      rw [hq]
      split <;> simp only [attached_plain, this]

theorem splay_remove (h : PtrHolds s t) (v : NumArg N) {r : BstRes N} {t' : Bst N Unit}
    (e : splayRemove t v = .ok (r, t')) : Gives (pSplayRemove v) s r t' := by
  have h' : PtrHolds { s with warned := false } t := holds_warned h false
  cases v with
  | none => cases e; exact gives_ok rfl rfl (holds_warned h true)
  | other => cases e; exact gives_ok rfl rfl (holds_warned h true)
  | num v =>
    have hh := h'
    obtain ⟨T, Z, h1, h2⟩ := h'
    cases T with
    | nil =>
      have ht : t.root = .nil := h1.symm
      have e0 : pRoot { s with warned := false } = (.ok none, { s with warned := false }) := by
        rw [pm_root, Z.root rfl]; rfl
      simp only [splayRemove, ht, Except.ok.injEq, Prod.mk.injEq] at e
      obtain ⟨rfl, rfl⟩ := e
      exact gives_ok ((pm_bind_ok e0).trans rfl) rfl (holds_warned h true)
    | node l w r' =>
      have ht : t.root = .node l.forget (w.1, w.2.1) r'.forget := h1.symm
      have ht' : t.root = (BTree.node l w r').forget := h1.symm
      have e0 : pRoot { s with warned := false } = (.ok (some w.2.2), { s with warned := false }) := by
        rw [pm_root, Z.root rfl]; rfl
      have start : ∀ {k : PM N Unit (BstVal N)}, k = (do
            if ((l.ptr.isNone && r'.ptr.isNone) = true ∧ v = w.1) then do
              pSetRoot none
              pAddLength (-1)
              return .unit
            else do
              (fun v => do
                let node ← pRemove (plainClass Unit) (← pFuel) v
                pSplay (plainClass Unit) (← pFuel) node) v
              return .unit) →
          pSplayRemove (.num v) { s with warned := false } = k { s with warned := false } := by
        rintro k rfl
        exact (pm_bind_ok e0).trans <| (pm_bind_ok (pm_isLeaf Z.rep.1)).trans <| (pm_bind_ok (pm_data Z.rep.1)).trans rfl
      have run : ∀ {a : Addr} {s1 s2 : PTree N Unit}, ¬((l.ptr.isNone && r'.ptr.isNone) = true ∧ v = w.1) →
          pRemove (plainClass Unit) (s.next + 1) v { s with warned := false } = (.ok (some a), s1) →
          pSplay (plainClass Unit) (s1.next + 1) (some a) s1 = (.ok (), s2) →
          pSplayRemove (.num v) { s with warned := false } = (.ok .unit, s2) := by
        intro a s1 s2 hc e1 e2
        refine (start rfl).trans ?_
        rw [if_neg hc]
        exact (pm_bind_ok ((pm_bind_ok (pm_fuel _)).trans <| (pm_bind_ok e1).trans <|
          (pm_bind_ok (pm_fuel _)).trans e2)).trans rfl
      -- the value is not there
      have missing : ¬((l.ptr.isNone && r'.ptr.isNone) = true ∧ v = w.1) →
          (BTree.node l w r').dataAt ((BTree.node l w r').search v) ≠ some v → ∀ {S : BTree (N × Unit)},
          (BTree.node l w r').forget.splay ((BTree.node l w r').search v) = .ok S →
          Gives (pSplayRemove (.num v)) s (.ok (.unit, true)) ⟨S, t.length⟩ := by
        intro hc hd S hS
        obtain ⟨a, x, b, hw⟩ := search_walk v (BTree.node l w r') (by simp)
        have hdd : (BTree.node l w r').descend ((BTree.node l w r').search v) [] =
            (.node a x b, (BTree.node l w r').above ((BTree.node l w r').search v)) := by
          rw [descend_eq, hw, List.append_nil]
        have e1 := pm_remove_missing (C := plainClass Unit) Z (by simp) hd (by rw [hw]; simp) (s.next + 1)
          (Nat.le_succ _)
        rw [hw] at e1
        obtain ⟨T', e3, hT'⟩ := splay_forget hdd hS
        have Z1 := (Z.congr (s' := { s with warned := true }) rfl rfl rfl).descend
          (q := (BTree.node l w r').search v)
        rw [hdd] at Z1
        obtain ⟨s2, e2, Z2, k1, k2, k3⟩ := pm_splay Z1 e3 (s.next + 1) (Nat.le_succ _)
        exact gives_ok (run hc e1 e2) (by rw [k2]) ⟨T', Z2, hT', k1.trans h2⟩
      by_cases hlf : (BTree.node l w r').isLeaf = true
      · obtain ⟨rfl, rfl⟩ := isLeaf_iff.mp hlf
        have htl : t.root = .node .nil (w.1, w.2.1) .nil := ht
        by_cases hv : v = w.1
        · simp only [splayRemove, htl, if_pos hv, Except.ok.injEq, Prod.mk.injEq] at e
          obtain ⟨rfl, rfl⟩ := e
          refine gives_ok (s' := { s with warned := false, root := none, length := s.length - 1 }) ((start rfl).trans ?_)
            rfl ⟨.nil, ⟨?_, trivial, ?_, ?_⟩, rfl, ?_⟩
          · rw [if_pos ⟨rfl, hv⟩]; rfl
          · rfl
          · simp [BTree.addrs, ctxAddrs]
          · simp [BTree.addrs, ctxAddrs]
          · simpa using h2
        · simp only [splayRemove, htl, if_neg hv, Except.ok.injEq, Prod.mk.injEq] at e
          obtain ⟨rfl, rfl⟩ := e
          have hs : (BTree.node .nil w .nil : ATree N Unit).search v = [] := by
            simp [BTree.search, hv]
          have hd : (BTree.node .nil w .nil : ATree N Unit).dataAt ((BTree.node .nil w .nil).search v) ≠ some v := by
            rw [hs]
            simp only [BTree.dataAt, BTree.walk, ne_eq, Option.some.injEq]
            exact fun hc => hv hc.symm
          have := missing (fun hc => hv hc.2) hd (S := t.root) (by
            rw [hs, ht']
            unfold BTree.splay
            rw [descend_eq]
            rfl)
          exact this
      · have hlf' : (BTree.node l w r').isLeaf = false := by simpa using hlf
        have hnl : ¬(l = .nil ∧ r' = .nil) := fun hc => hlf (isLeaf_iff.mpr hc)
        have hcond : ¬((l.ptr.isNone && r'.ptr.isNone) = true ∧ v = w.1) := by
          rintro ⟨hc, -⟩
          cases l <;> cases r' <;> first | exact hnl ⟨rfl, rfl⟩ | simp [BTree.ptr] at hc
        have hval : splayRemove t (.num v) = (do
            let S ← (t.root.remove v).1.splay (t.root.lastAccessed v)
            pure (.ok (.unit, !(t.root.remove v).2),
              ⟨S, if (t.root.remove v).2 then t.length - 1 else t.length⟩)) := by
          rw [ht]
          cases l with
          | nil =>
            cases r' with
            | nil => exact absurd ⟨rfl, rfl⟩ hnl
            | node a u b => simp only [splayRemove, ht]; rfl
          | node a u b => simp only [splayRemove, ht]; rfl
        rw [hval, ht'] at e
        simp only [BTree.forget, mapExt_remove, mapExt_lastAccessed] at e
        cases hS : (((BTree.node l w r').remove v).1.mapExt (Prod.fst : Unit × Addr → Unit)).splay
            ((BTree.node l w r').lastAccessed v) with
        | error y => rw [hS] at e; simp [bind, Except.bind] at e
        | ok S =>
          rw [hS] at e
          simp only [bind, Except.bind, pure, Except.pure, Except.ok.injEq, Prod.mk.injEq] at e
          obtain ⟨rfl, rfl⟩ := e
          by_cases hd : (BTree.node l w r').dataAt ((BTree.node l w r').search v) = some v
          · obtain ⟨nd', e1, Z1⟩ := pm_remove_found (C := plainClass Unit) Z hlf' hd (s.next + 1) (Nat.le_refl _)
            have hway := removeZ_way v _ hd
            have hplug := removeZ_plain v _ hd
            have hr2 : ((BTree.node l w r').remove v).2 = true := by simp [BTree.remove, hd]
            have hla : (BTree.node l w r').lastAccessed v =
                (wayOf (removeZ (plainClass Unit) ((BTree.node l w r').search v) (.node l w r')).2).dropLast := by
              rw [hway, BTree.lastAccessed, if_pos hd]
            rw [hr2]
            generalize hZ : removeZ (plainClass Unit) ((BTree.node l w r').search v) (.node l w r') = zz at *
            obtain ⟨zt, zf⟩ := zz
            simp only at e1 Z1 hplug hla hway
            cases zf with
            | nil =>
              exfalso
              simp only [wayOf] at hway
              have h3 : (BTree.node l w r').search v = [] := (List.append_eq_nil_iff.mp hway.symm).1
              have h4 := (List.append_eq_nil_iff.mp hway.symm).2
              rw [h3] at h4
              simp only [BTree.walk] at h4
              exact hnl (replacementPath_nil _ _ _ h4)
            | cons F fs =>
              rw [wayOf, List.dropLast_concat] at hla
              have Z2 := Z1.up
              rw [plug] at hplug
              obtain ⟨A, B, hAB⟩ : ∃ A B, (if F.left then BTree.node zt F.w F.other else .node F.other F.w zt) =
                  .node A F.w B := by
                cases F.left
                · exact ⟨_, _, rfl⟩
                · exact ⟨_, _, rfl⟩
              rw [hAB] at Z2 hplug
              have hp := plug_descend' fs A B F.w
              rw [hplug, ← hla] at hp
              obtain ⟨T', e3, hT'⟩ := splay_forget hp hS
              obtain ⟨s2, e2, Z3, k1, k2, k3⟩ := pm_splay (s := { (s.put nd') with warned := false, length := s.length - 1 })
                (Z2.congr rfl rfl rfl) e3 (s.next + 1) (Nat.le_succ _)
              refine gives_ok (run hcond e1 e2) (by rw [k2]; rfl) ⟨T', Z3, hT', ?_⟩
              rw [k1]; simpa using h2
          · have hr2 : (BTree.node l w r').remove v = (.node l w r', false) := by simp [BTree.remove, hd]
            rw [hr2] at hS ⊢
            rw [BTree.lastAccessed, if_neg hd] at hS
            exact missing hcond hd hS

theorem gives_getMin {s : PTree N X} {t : Bst N X} (h : PtrHolds s t) :
    Gives pGetMin s (t.getMin.map fun m => (.num m, false)) t := by
  have h' : PtrHolds { s with warned := false } t := holds_warned h false
  have hh := h'
  obtain ⟨T, Z, h1, h2⟩ := h'
  have k : (⟨T, 0⟩ : Bst N (X × Addr)).getMin = t.getMin := by
    simp only [Bst.getMin, ← h1, BTree.forget, mapExt_minNode]
    cases T.minNode <;> rfl
  have e := pm_getMin Z
  rw [k] at e
  cases hg : t.getMin with
  | error x => rw [hg] at e; exact gives_error e hh
  | ok v => rw [hg] at e; exact gives_ok e rfl hh

theorem gives_getMax {s : PTree N X} {t : Bst N X} (h : PtrHolds s t) :
    Gives pGetMax s (t.getMax.map fun m => (.num m, false)) t := by
  have h' : PtrHolds { s with warned := false } t := holds_warned h false
  have hh := h'
  obtain ⟨T, Z, h1, h2⟩ := h'
  have k : (⟨T, 0⟩ : Bst N (X × Addr)).getMax = t.getMax := by
    simp only [Bst.getMax, ← h1, BTree.forget, mapExt_maxNode]
    cases T.maxNode <;> rfl
  have e := pm_getMax Z
  rw [k] at e
  cases hg : t.getMax with
  | error x => rw [hg] at e; exact gives_error e hh
  | ok v => rw [hg] at e; exact gives_ok e rfl hh

theorem gives_inorder {s : PTree N X} {t : Bst N X} (h : PtrHolds s t) :
    Gives (do return .list (← pInorder (← pFuel) (← pRoot))) s (.ok (.list t.root.keys, false)) t := by
  have h' : PtrHolds { s with warned := false } t := holds_warned h false
  have hh := h'
  obtain ⟨T, Z, h1, h2⟩ := h'
  have hr : pRoot { s with warned := false } = (.ok T.ptr, { s with warned := false }) := by
    rw [pm_root, Z.root rfl]
  have e := pm_inorder Z.rep (s.next + 1) (Nat.lt_succ_of_le Z.length_le)
  have hk : T.keys = t.root.keys := by rw [← h1, BTree.forget, mapExt_keys]
  rw [← hk]
  exact gives_ok ((pm_bind_ok (pm_fuel _)).trans <| (pm_bind_ok hr).trans <| (pm_bind_ok e).trans rfl) rfl hh

theorem gives_len {s : PTree N X} {t : Bst N X} (h : PtrHolds s t) :
    Gives (fun s => (.ok (.int s.length), s)) s (.ok (.int t.length, false)) t := by
  have h' : PtrHolds { s with warned := false } t := holds_warned h false
  have hl : s.length = t.length := by obtain ⟨_, _, _, h2⟩ := h; exact h2
  rw [← hl]
  exact gives_ok rfl rfl h'

theorem gives_clear {s : PTree N X} : Gives pClear s (.ok (.unit, false)) Bst.empty := by
  refine gives_ok rfl rfl ⟨.nil, ⟨rfl, trivial, ?_, ?_⟩, rfl, rfl⟩
  · simp [BTree.addrs, ctxAddrs]
  · simp [BTree.addrs, ctxAddrs]

/-- one call -/
theorem splay_exec (h : PtrHolds s t) (op : SplayOp N) {r : BstRes N} {t' : Bst N Unit}
    (e : splayExec t op = .ok (r, t')) : (pSplayExec s op).1 = r ∧ PtrHolds (pSplayExec s op).2 t' := by
  have fin : ∀ {m : PM N Unit (BstVal N)} {r : BstRes N} {t' : Bst N Unit}, Gives m s r t' →
      (pCall m s).1 = r ∧ PtrHolds (pCall m s).2 t' := by
    rintro m r t' ⟨s', e, H⟩
    rw [e]; exact ⟨rfl, H⟩
  cases op with
  | insert v => exact fin (splay_insert h v e)
  | remove v => exact fin (splay_remove h v e)
  | contains v => exact fin (splay_contains h v e)
  | getMin => cases e; exact fin (gives_getMin h)
  | getMax => cases e; exact fin (gives_getMax h)
  | len => cases e; exact fin (gives_len h)
  | inorder => cases e; exact fin (gives_inorder h)
  | clear => cases e; exact fin gives_clear

/-- a history -/
theorem splay_execs (ops : List (SplayOp N)) {s : PTree N Unit} {t : Bst N Unit} (h : PtrHolds s t)
    {rs : List (BstRes N)} {t' : Bst N Unit} (e : splayExecs ops t = .ok (rs, t')) :
    (pSplayExecs ops s).1 = rs ∧ PtrHolds (pSplayExecs ops s).2 t' := by
  induction ops generalizing s t rs with
  | nil => cases e; exact ⟨rfl, h⟩
  | cons op ops ih =>
    simp only [splayExecs, bind, Except.bind] at e
    split at e
    · simp at e
    next x hx =>
      obtain ⟨r, t1⟩ := x
      simp only at e
      split at e
      · simp at e
      next y hy =>
        obtain ⟨rs', t2⟩ := y
        simp only [pure, Except.pure, Except.ok.injEq, Prod.mk.injEq] at e
        obtain ⟨rfl, rfl⟩ := e
        have h1 := splay_exec h op hx
        have h2 := ih h1.2 hy
        exact ⟨by rw [pSplayExecs, h1.1, h2.1], h2.2⟩

end

end Extra
