import Verif.Trees.PtrTree
import Verif.Trees.Zipper

/-!
# Which node objects make up a tree (no property content)

A tree with addresses is a tree whose extensions are `(ext, address)`.  `PRep nd p t`: the node objects `nd`
hold the tree `t`, and the root of it has the parent link `p`.
-/

namespace Extra
variable {N X α β : Type}

/-! ## Execution -/

/-- the same tree object with other node objects -/
def PTree.put (s : PTree N X) (nd : Addr → Option (PNode N X)) : PTree N X := { s with node := nd }

@[simp] theorem put_node (s : PTree N X) (nd) : (s.put nd).node = nd := rfl
@[simp] theorem put_next (s : PTree N X) (nd) : (s.put nd).next = s.next := rfl
@[simp] theorem put_root (s : PTree N X) (nd) : (s.put nd).root = s.root := rfl
@[simp] theorem put_length (s : PTree N X) (nd) : (s.put nd).length = s.length := rfl
@[simp] theorem put_warned (s : PTree N X) (nd) : (s.put nd).warned = s.warned := rfl
@[simp] theorem put_put (s : PTree N X) (nd nd') : (s.put nd).put nd' = s.put nd' := rfl
theorem put_self (s : PTree N X) : s.put s.node = s := rfl


theorem pm_bind (m : PM N X α) (f : α → PM N X β) (s : PTree N X) :
    (m >>= f) s = match m s with
      | (.ok a, s') => f a s'
      | (.error e, s') => (.error e, s') := rfl

theorem pm_bind_ok {m : PM N X α} {f : α → PM N X β} {s s' : PTree N X} {a : α}
    (e : m s = (.ok a, s')) : (m >>= f) s = f a s' := by rw [pm_bind, e]

theorem pm_bind_err {m : PM N X α} {f : α → PM N X β} {s s' : PTree N X} {e : Err}
    (he : m s = (.error e, s')) : (m >>= f) s = (.error e, s') := by rw [pm_bind, he]

@[simp] theorem pm_pure (a : α) (s : PTree N X) : (pure a : PM N X α) s = (.ok a, s) := rfl
@[simp] theorem pm_pure' (a : α) (s : PTree N X) : (PM.pure a : PM N X α) s = (.ok a, s) := rfl
@[simp] theorem pm_throw (e : Err) (s : PTree N X) : (PM.throw e : PM N X α) s = (.error e, s) := rfl
@[simp] theorem pm_root (s : PTree N X) : (pRoot : PM N X _) s = (.ok s.root, s) := rfl
@[simp] theorem pm_setRoot (p : Option Addr) (s : PTree N X) :
    pSetRoot p s = (.ok (), { s with root := p }) := rfl
@[simp] theorem pm_fuel (s : PTree N X) : (pFuel : PM N X _) s = (.ok (s.next + 1), s) := rfl
@[simp] theorem pm_addLength (d : Int) (s : PTree N X) :
    pAddLength d s = (.ok (), { s with length := s.length + d }) := rfl
@[simp] theorem pm_warn (s : PTree N X) : pWarn s = (.ok (), { s with warned := true }) := rfl
@[simp] theorem pm_assert (a : Addr) (s : PTree N X) : pAssert (some a) s = (.ok (), s) := rfl
@[simp] theorem pm_assert_none (s : PTree N X) :
    pAssert none s = (.error .assertionError, s) := rfl
@[simp] theorem pm_new (v : N) (x : X) (s : PTree N X) : pNew v x s = (.ok (some s.next),
    { s with node := upd s.node s.next (some ⟨v, x, none, none, none⟩), next := s.next + 1 }) := rfl

theorem pm_node {a : Addr} {n : PNode N X} {s : PTree N X} (h : s.node a = some n) :
    pNode (some a) s = (.ok n, s) := by simp [pNode, h]
theorem pm_setNode {a : Addr} {n : PNode N X} {s : PTree N X} (f : PNode N X → PNode N X)
    (h : s.node a = some n) :
    pSetNode (some a) f s = (.ok (), s.put (upd s.node a (some (f n)))) := by
  simp [pSetNode, h, PTree.put]
theorem pm_data {a : Addr} {n : PNode N X} {s : PTree N X} (h : s.node a = some n) :
    pData (some a) s = (.ok n.data, s) := by rw [pData, pm_bind_ok (pm_node h)]; rfl
theorem pm_left {a : Addr} {n : PNode N X} {s : PTree N X} (h : s.node a = some n) :
    pLeft (some a) s = (.ok n.left, s) := by rw [pLeft, pm_bind_ok (pm_node h)]; rfl
theorem pm_right {a : Addr} {n : PNode N X} {s : PTree N X} (h : s.node a = some n) :
    pRight (some a) s = (.ok n.right, s) := by rw [pRight, pm_bind_ok (pm_node h)]; rfl
theorem pm_parent {a : Addr} {n : PNode N X} {s : PTree N X} (h : s.node a = some n) :
    pParent (some a) s = (.ok n.parent, s) := by rw [pParent, pm_bind_ok (pm_node h)]; rfl
theorem pm_setParent {a : Addr} {n : PNode N X} {s : PTree N X} (q : Option Addr)
    (h : s.node a = some n) :
    pSetParent (some a) q s = (.ok (), s.put (upd s.node a (some { n with parent := q }))) :=
  pm_setNode _ h
theorem pm_isLeaf {a : Addr} {n : PNode N X} {s : PTree N X} (h : s.node a = some n) :
    pIsLeaf (some a) s = (.ok (n.left.isNone && n.right.isNone), s) := by
  rw [pIsLeaf, pm_bind_ok (pm_node h)]; rfl
theorem pm_isLeftChild [LinearOrder N] {a b : Addr} {n m : PNode N X} {s : PTree N X} (h : s.node a = some n)
    (hp : n.parent = some b) (hb : s.node b = some m) :
    pIsLeftChild (some a) s = (.ok (decide (m.data > n.data)), s) := by
  rw [pIsLeftChild, pm_bind_ok (pm_parent h), hp, pm_bind_ok (pm_data hb), pm_bind_ok (pm_data h)]; rfl

@[simp] theorem upd_eq {γ : Type} (f : Addr → γ) (a : Addr) (b : γ) : upd f a b a = b := by
  simp [upd]
theorem upd_other {γ : Type} (f : Addr → γ) {a x : Addr} (b : γ) (hx : x ≠ a) :
    upd f a b x = f x := by simp [upd, hx]

/-! ## Trees with addresses -/

/-- a tree whose nodes have addresses -/
abbrev ATree (N X : Type) := BTree (N × (X × Addr))

/-- the link to a tree -/
def BTree.ptr : ATree N X → Option Addr
  | .nil => none
  | .node _ w _ => some w.2.2

/-- the extension at the root of a tree -/
def BTree.ext? : ATree N X → Option X
  | .nil => none
  | .node _ w _ => some w.2.1

/-- the addresses of a tree -/
def BTree.addrs : ATree N X → List Addr
  | .nil => []
  | .node l w r => w.2.2 :: (l.addrs ++ r.addrs)

/-- the node objects hold the tree -/
def PRep (nd : Addr → Option (PNode N X)) : Option Addr → ATree N X → Prop
  | _, .nil => True
  | p, .node l w r =>
    nd w.2.2 = some ⟨w.1, w.2.1, l.ptr, r.ptr, p⟩ ∧ PRep nd (some w.2.2) l ∧ PRep nd (some w.2.2) r

/-- nodes at other addresses do not matter -/
theorem PRep.frame {nd nd' : Addr → Option (PNode N X)} {t : ATree N X} {p : Option Addr}
    (h : PRep nd p t) (hf : ∀ a ∈ t.addrs, nd' a = nd a) : PRep nd' p t := by
  induction t generalizing p with
  | nil => trivial
  | node l w r ihl ihr =>
    obtain ⟨h1, h2, h3⟩ := h
    refine ⟨?_, ihl h2 fun a ha => hf a ?_, ihr h3 fun a ha => hf a ?_⟩
    · rw [hf _ (by simp [BTree.addrs]), h1]
    · simp [BTree.addrs, ha]
    · simp [BTree.addrs, ha]

/-- a node whose extension has been set from those of its children -/
def relinked (C : PClass X) (l : ATree N X) (w : N × (X × Addr)) (r : ATree N X) : ATree N X :=
  .node l (w.1, C.relink l.ext? r.ext? w.2.1, w.2.2) r

@[simp] theorem ptr_relinked (C : PClass X) (l : ATree N X) (w : N × (X × Addr)) (r : ATree N X) :
    (relinked C l w r).ptr = some w.2.2 := rfl
@[simp] theorem addrs_relinked (C : PClass X) (l : ATree N X) (w : N × (X × Addr)) (r : ATree N X) :
    (relinked C l w r).addrs = w.2.2 :: (l.addrs ++ r.addrs) := rfl

/-- a class whose `set_left` and `set_right` forget the old extension or keep it -/
def PClass.Ok (C : PClass X) : Prop := ∀ a b c d x, C.relink a b (C.relink c d x) = C.relink a b x

theorem plainClass_ok : (plainClass X).Ok := fun _ _ _ _ _ => rfl

theorem pm_ext {t : ATree N X} {s : PTree N X} {q : Option Addr} (h : PRep s.node q t) :
    pExt? t.ptr s = (.ok t.ext?, s) := by
  cases t with
  | nil => rfl
  | node l w r => simp only [BTree.ptr, pExt?]; rw [pm_bind_ok (pm_node h.1)]; rfl

theorem pm_relink {C : PClass X} {a : Addr} {n : PNode N X} {s : PTree N X} {l r : ATree N X}
    {p q : Option Addr} (h : s.node a = some n) (hl : n.left = l.ptr) (hr : n.right = r.ptr)
    (Hl : PRep s.node p l) (Hr : PRep s.node q r) :
    pRelink C (some a) s = (.ok (),
      s.put (upd s.node a (some { n with ext := C.relink l.ext? r.ext? n.ext }))) := by
  rw [pRelink, pm_bind_ok (pm_node h), hl, pm_bind_ok (pm_ext Hl), hr, pm_bind_ok (pm_ext Hr), pm_setNode _ h,
    hl, hr]

/-- setting the parent link of a tree, if there is one -/
theorem pm_setParent_tree {t : ATree N X} {s : PTree N X} {q : Option Addr} (p : Option Addr)
    (h : PRep s.node q t) (hn : t.addrs.Nodup) :
    ∃ nd', pAdopt p t.ptr s = (.ok (), s.put nd') ∧
      PRep nd' p t ∧ ∀ b, b ∉ t.addrs → nd' b = s.node b := by
  cases t with
  | nil => exact ⟨s.node, rfl, trivial, fun _ _ => rfl⟩
  | node l w r =>
    refine ⟨_, pm_setParent _ h.1, ?_, ?_⟩
    · simp only [BTree.addrs, List.nodup_cons] at hn
      refine ⟨by simp, h.2.1.frame fun a ha => upd_other _ _ ?_, h.2.2.frame fun a ha => upd_other _ _ ?_⟩
      · rintro rfl; exact hn.1 (by simp [ha])
      · rintro rfl; exact hn.1 (by simp [ha])
    · intro b hb
      refine upd_other _ _ ?_
      rintro rfl; exact hb (by simp [BTree.addrs])

/-- `set_left` -/
theorem pm_setLeft {C : PClass X} {a : Addr} {n : PNode N X} {s : PTree N X} {t r : ATree N X}
    {p q : Option Addr} (h : s.node a = some n) (Ht : PRep s.node p t) (hr : n.right = r.ptr)
    (Hr : PRep s.node q r) (hnd : t.addrs.Nodup) (hat : a ∉ t.addrs) (har : a ∉ r.addrs)
    (hd : ∀ b ∈ t.addrs, b ∉ r.addrs) :
    ∃ nd', pSetLeft C (some a) t.ptr s = (.ok (), s.put nd') ∧
      nd' a = some { n with left := t.ptr, ext := C.relink t.ext? r.ext? n.ext } ∧
      PRep nd' (some a) t ∧ ∀ b, b ≠ a → b ∉ t.addrs → nd' b = s.node b := by
  obtain ⟨nd', e', R', F'⟩ := pm_setParent_tree
    (s := s.put (upd s.node a (some { n with left := t.ptr }))) (some a)
    (Ht.frame fun b hb => upd_other _ _ (by rintro rfl; exact hat hb)) hnd
  have ha' : nd' a = some { n with left := t.ptr } := by rw [F' a hat]; simp
  refine ⟨upd nd' a (some { n with left := t.ptr, ext := C.relink t.ext? r.ext? n.ext }), ?_, by simp, ?_, ?_⟩
  · rw [pSetLeft, pm_bind_ok (pm_setNode _ h), pm_bind_ok e']
    refine pm_relink (s := s.put nd') (l := t) (r := r) (p := some a) (q := q) ha' rfl hr R' ?_
    exact Hr.frame fun b hb => by
      rw [put_node, F' b fun hb' => hd b hb' hb, put_node, upd_other]
      rintro rfl; exact har hb
  · exact R'.frame fun b hb => upd_other _ _ (by rintro rfl; exact hat hb)
  · intro b hb hbt
    rw [upd_other _ _ hb, F' b hbt, put_node, upd_other _ _ hb]

/-- `set_right` -/
theorem pm_setRight {C : PClass X} {a : Addr} {n : PNode N X} {s : PTree N X} {t l : ATree N X}
    {p q : Option Addr} (h : s.node a = some n) (Ht : PRep s.node p t) (hl : n.left = l.ptr)
    (Hl : PRep s.node q l) (hnd : t.addrs.Nodup) (hat : a ∉ t.addrs) (hal : a ∉ l.addrs)
    (hd : ∀ b ∈ t.addrs, b ∉ l.addrs) :
    ∃ nd', pSetRight C (some a) t.ptr s = (.ok (), s.put nd') ∧
      nd' a = some { n with right := t.ptr, ext := C.relink l.ext? t.ext? n.ext } ∧
      PRep nd' (some a) t ∧ ∀ b, b ≠ a → b ∉ t.addrs → nd' b = s.node b := by
  obtain ⟨nd', e', R', F'⟩ := pm_setParent_tree
    (s := s.put (upd s.node a (some { n with right := t.ptr }))) (some a)
    (Ht.frame fun b hb => upd_other _ _ (by rintro rfl; exact hat hb)) hnd
  have ha' : nd' a = some { n with right := t.ptr } := by rw [F' a hat]; simp
  refine ⟨upd nd' a (some { n with right := t.ptr, ext := C.relink l.ext? t.ext? n.ext }), ?_, by simp, ?_, ?_⟩
  · rw [pSetRight, pm_bind_ok (pm_setNode _ h), pm_bind_ok e']
    refine pm_relink (s := s.put nd') (l := l) (r := t) (p := q) (q := some a) ha' hl rfl ?_ R'
    exact Hl.frame fun b hb => by
      rw [put_node, F' b fun hb' => hd b hb' hb, put_node, upd_other]
      rintro rfl; exact hal hb
  · exact R'.frame fun b hb => upd_other _ _ (by rintro rfl; exact hat hb)
  · intro b hb hbt
    rw [upd_other _ _ hb, F' b hbt, put_node, upd_other _ _ hb]

/-! ## Rotations -/

section
variable {C : PClass X} {s : PTree N X} {p : Option Addr}

/-- `_rotate_left` -/
theorem pm_rotateLeft {A B D : ATree N X} {v w : N × (X × Addr)}
    (H : PRep s.node p (.node A v (.node B w D)))
    (hn : (BTree.node A v (.node B w D)).addrs.Nodup) :
    ∃ nd', pRotateLeft C (some v.2.2) s = (.ok (some w.2.2), s.put nd') ∧
      PRep nd' p (relinked C (relinked C A v B) w D) ∧
      ∀ b, b ∉ (BTree.node A v (.node B w D)).addrs → nd' b = s.node b := by
  obtain ⟨Hv, HA, Hw, HB, HD⟩ := H
  simp only [BTree.addrs, List.nodup_cons, List.nodup_append, List.mem_append, List.mem_cons, not_or,
    ne_eq] at hn
  have F1 : ∀ b, b ≠ w.2.2 → upd s.node w.2.2 (some ⟨w.1, w.2.1, B.ptr, D.ptr, p⟩) b = s.node b :=
    fun b hb => upd_other _ _ hb
  obtain ⟨nd2, e2, hv2, R2, F2⟩ := pm_setRight (C := C) (a := v.2.2) (t := B) (l := A)
    (s := s.put (upd s.node w.2.2 (some ⟨w.1, w.2.1, B.ptr, D.ptr, p⟩)))
    (by rw [put_node, F1 _ (by grind), Hv]) (HB.frame fun b hb => F1 b (by grind)) rfl
    (HA.frame fun b hb => F1 b (by grind)) (by grind) (by grind) (by grind) (by grind)
  rw [put_node] at F2
  have HA2 : PRep nd2 (some v.2.2) A := HA.frame fun b hb => by
    rw [F2 b (by grind) (by grind), F1 b (by grind)]
  have HD2 : PRep nd2 (some w.2.2) D := HD.frame fun b hb => by
    rw [F2 b (by grind) (by grind), F1 b (by grind)]
  have hw2 : nd2 w.2.2 = some ⟨w.1, w.2.1, B.ptr, D.ptr, p⟩ := by
    rw [F2 _ (by grind) (by grind), upd_eq]
  obtain ⟨nd3, e3, hw3, R3, F3⟩ := pm_setLeft (C := C) (a := w.2.2) (t := relinked C A v B) (r := D)
    (s := s.put nd2) (p := p) hw2 ⟨hv2, HA2, R2⟩ rfl HD2
    (by simp only [addrs_relinked, List.nodup_cons, List.nodup_append, List.mem_append]; grind)
    (by simp only [addrs_relinked, List.mem_append, List.mem_cons]; grind) (by grind)
    (fun b hb hb' => by simp only [addrs_relinked, List.mem_append, List.mem_cons] at hb; grind)
  rw [put_node] at F3
  refine ⟨nd3, ?_, ⟨hw3, R3, HD2.frame fun b hb => F3 b (by grind) ?_⟩, ?_⟩
  · refine (pm_bind_ok (pm_assert _ _)).trans <| (pm_bind_ok (pm_right Hv)).trans <|
      (pm_bind_ok (pm_parent Hv)).trans <| (pm_bind_ok (pm_setParent _ Hw)).trans <|
      (pm_bind_ok (pm_left (n := ⟨w.1, w.2.1, B.ptr, D.ptr, p⟩) (by simp))).trans <|
      (pm_bind_ok e2).trans <| (pm_bind_ok e3).trans rfl
  · simp only [addrs_relinked, List.mem_append, List.mem_cons]; grind
  · intro b hb
    simp only [BTree.addrs, List.mem_append, List.mem_cons, not_or] at hb
    rw [F3 b (by grind) (by simp [hb]), F2 b (by grind) (by grind), F1 b (by grind)]

/-- `_rotate_right` -/
theorem pm_rotateRight {A B D : ATree N X} {v w : N × (X × Addr)}
    (H : PRep s.node p (.node (.node A v B) w D))
    (hn : (BTree.node (.node A v B) w D).addrs.Nodup) :
    ∃ nd', pRotateRight C (some w.2.2) s = (.ok (some v.2.2), s.put nd') ∧
      PRep nd' p (relinked C A v (relinked C B w D)) ∧
      ∀ b, b ∉ (BTree.node (.node A v B) w D).addrs → nd' b = s.node b := by
  obtain ⟨Hw, ⟨Hv, HA, HB⟩, HD⟩ := H
  simp only [BTree.addrs, List.nodup_cons, List.nodup_append, List.mem_append, List.mem_cons, not_or,
    ne_eq, List.cons_append] at hn
  have F1 : ∀ b, b ≠ v.2.2 → upd s.node v.2.2 (some ⟨v.1, v.2.1, A.ptr, B.ptr, p⟩) b = s.node b :=
    fun b hb => upd_other _ _ hb
  obtain ⟨nd2, e2, hw2, R2, F2⟩ := pm_setLeft (C := C) (a := w.2.2) (t := B) (r := D)
    (s := s.put (upd s.node v.2.2 (some ⟨v.1, v.2.1, A.ptr, B.ptr, p⟩)))
    (by rw [put_node, F1 _ (by grind), Hw]) (HB.frame fun b hb => F1 b (by grind)) rfl
    (HD.frame fun b hb => F1 b (by grind)) (by grind) (by grind) (by grind) (by grind)
  rw [put_node] at F2
  have HA2 : PRep nd2 (some v.2.2) A := HA.frame fun b hb => by
    rw [F2 b (by grind) (by grind), F1 b (by grind)]
  have HD2 : PRep nd2 (some w.2.2) D := HD.frame fun b hb => by
    rw [F2 b (by grind) (by grind), F1 b (by grind)]
  have hv2 : nd2 v.2.2 = some ⟨v.1, v.2.1, A.ptr, B.ptr, p⟩ := by
    rw [F2 _ (by grind) (by grind), upd_eq]
  obtain ⟨nd3, e3, hv3, R3, F3⟩ := pm_setRight (C := C) (a := v.2.2) (t := relinked C B w D) (l := A)
    (s := s.put nd2) (p := p) hv2 ⟨hw2, R2, HD2⟩ rfl HA2
    (by simp only [addrs_relinked, List.nodup_cons, List.nodup_append, List.mem_append]; grind)
    (by simp only [addrs_relinked, List.mem_append, List.mem_cons]; grind) (by grind)
    (fun b hb hb' => by simp only [addrs_relinked, List.mem_append, List.mem_cons] at hb; grind)
  rw [put_node] at F3
  refine ⟨nd3, ?_, ⟨hv3, HA2.frame fun b hb => F3 b (by grind) ?_, R3⟩, ?_⟩
  · refine (pm_bind_ok (pm_assert _ _)).trans <| (pm_bind_ok (pm_left Hw)).trans <|
      (pm_bind_ok (pm_parent Hw)).trans <| (pm_bind_ok (pm_setParent _ Hv)).trans <|
      (pm_bind_ok (pm_right (n := ⟨v.1, v.2.1, A.ptr, B.ptr, p⟩) (by simp))).trans <|
      (pm_bind_ok e2).trans <| (pm_bind_ok e3).trans rfl
  · simp only [addrs_relinked, List.mem_append, List.mem_cons]; grind
  · intro b hb
    simp only [BTree.addrs, List.mem_append, List.mem_cons, not_or, List.cons_append] at hb
    rw [F3 b (by grind) (by simp [hb]), F2 b (by grind) (by grind), F1 b (by grind)]

/-- `_rotate_left_right` -/
theorem pm_rotateLeftRight (hC : C.Ok) {A B D E : ATree N X} {u v w : N × (X × Addr)}
    (H : PRep s.node p (.node (.node A u (.node B v D)) w E))
    (hn : (BTree.node (.node A u (.node B v D)) w E).addrs.Nodup) :
    ∃ nd', pRotateLeftRight C (some w.2.2) s = (.ok (some v.2.2), s.put nd') ∧
      PRep nd' p (relinked C (relinked C A u B) v (relinked C D w E)) ∧
      ∀ b, b ∉ (BTree.node (.node A u (.node B v D)) w E).addrs → nd' b = s.node b := by
  obtain ⟨Hw, ⟨Hu, HA, Hv, HB, HD⟩, HE⟩ := H
  simp only [BTree.addrs, List.nodup_cons, List.nodup_append, List.mem_append, List.mem_cons, not_or,
    ne_eq, List.cons_append] at hn
  have F1 : ∀ b, b ≠ v.2.2 → upd s.node v.2.2 (some ⟨v.1, v.2.1, B.ptr, D.ptr, p⟩) b = s.node b :=
    fun b hb => upd_other _ _ hb
  -- `start_node.get_left().set_right(middle.get_left())`
  obtain ⟨nd2, e2, hu2, R2, F2⟩ := pm_setRight (C := C) (a := u.2.2) (t := B) (l := A)
    (s := s.put (upd s.node v.2.2 (some ⟨v.1, v.2.1, B.ptr, D.ptr, p⟩)))
    (by rw [put_node, F1 _ (by grind), Hu]) (HB.frame fun b hb => F1 b (by grind)) rfl
    (HA.frame fun b hb => F1 b (by grind)) (by grind) (by grind) (by grind) (by grind)
  rw [put_node] at F2
  have HA2 : PRep nd2 (some u.2.2) A := HA.frame fun b hb => by
    rw [F2 b (by grind) (by grind), F1 b (by grind)]
  have HD2 : PRep nd2 (some v.2.2) D := HD.frame fun b hb => by
    rw [F2 b (by grind) (by grind), F1 b (by grind)]
  have HE2 : PRep nd2 (some w.2.2) E := HE.frame fun b hb => by
    rw [F2 b (by grind) (by grind), F1 b (by grind)]
  have hv2 : nd2 v.2.2 = some ⟨v.1, v.2.1, B.ptr, D.ptr, p⟩ := by
    rw [F2 _ (by grind) (by grind), upd_eq]
  have hw2 : nd2 w.2.2 = some ⟨w.1, w.2.1, some u.2.2, E.ptr, p⟩ := by
    rw [F2 _ (by grind) (by grind), F1 _ (by grind), Hw]; rfl
  -- `middle.set_left(start_node.get_left())`
  obtain ⟨nd3, e3, hv3, R3, F3⟩ := pm_setLeft (C := C) (a := v.2.2) (t := relinked C A u B) (r := D)
    (s := s.put nd2) (p := some w.2.2) hv2 ⟨hu2, HA2, R2⟩ rfl HD2
    (by simp only [addrs_relinked, List.nodup_cons, List.nodup_append, List.mem_append]; grind)
    (by simp only [addrs_relinked, List.mem_append, List.mem_cons]; grind) (by grind)
    (fun b hb hb' => by simp only [addrs_relinked, List.mem_append, List.mem_cons] at hb; grind)
  simp only [put_node, addrs_relinked, List.mem_append, List.mem_cons] at F3
  have HD3 : PRep nd3 (some v.2.2) D := HD2.frame fun b hb => by rw [F3 b (by grind) (by grind)]
  have HE3 : PRep nd3 (some w.2.2) E := HE2.frame fun b hb => by rw [F3 b (by grind) (by grind)]
  have hw3 : nd3 w.2.2 = some ⟨w.1, w.2.1, some u.2.2, E.ptr, p⟩ := by
    rw [F3 _ (by grind) (by grind), hw2]
  -- `start_node.set_left(middle.get_right())`
  obtain ⟨nd4, e4, hw4, R4, F4⟩ := pm_setLeft (C := C) (a := w.2.2) (t := D) (r := E)
    (s := s.put nd3) hw3 HD3 rfl HE3 (by grind) (by grind) (by grind) (by grind)
  rw [put_node] at F4
  have hv4 := (F4 v.2.2 (by grind) (by grind)).trans hv3
  have HU4 : PRep nd4 (some v.2.2) (relinked C A u B) := R3.frame fun b hb => by
    simp only [addrs_relinked, List.mem_append, List.mem_cons] at hb
    rw [F4 b (by grind) (by grind)]
  have HE4 : PRep nd4 (some w.2.2) E := HE3.frame fun b hb => by rw [F4 b (by grind) (by grind)]
  -- `middle.set_right(start_node)`
  obtain ⟨nd5, e5, hv5, R5, F5⟩ := pm_setRight (C := C) (a := v.2.2) (t := relinked C D w E)
    (l := relinked C A u B) (s := s.put nd4) (p := p) hv4 ⟨hw4, R4, HE4⟩ rfl HU4
    (by simp only [addrs_relinked, List.nodup_cons, List.nodup_append, List.mem_append]; grind)
    (by simp only [addrs_relinked, List.mem_append, List.mem_cons]; grind)
    (by simp only [addrs_relinked, List.mem_append, List.mem_cons]; grind)
    (fun b hb hb' => by
      simp only [addrs_relinked, List.mem_append, List.mem_cons] at hb hb'; grind)
  simp only [put_node, addrs_relinked, List.mem_append, List.mem_cons] at F5
  refine ⟨nd5, ?_, ⟨?_, HU4.frame fun b hb => ?_, R5⟩, ?_⟩
  · refine (pm_bind_ok (pm_assert _ _)).trans <| (pm_bind_ok (pm_left Hw)).trans <|
      (pm_bind_ok (pm_right Hu)).trans <|
      (pm_bind_ok (pm_parent Hw)).trans <| (pm_bind_ok (pm_setParent _ Hv)).trans <|
      (pm_bind_ok (pm_left (n := ⟨w.1, w.2.1, some u.2.2, E.ptr, p⟩) (by rw [put_node, F1 _ (by grind), Hw]; rfl))).trans <|
      (pm_bind_ok (pm_left (n := ⟨v.1, v.2.1, B.ptr, D.ptr, p⟩) (by simp))).trans <|
      (pm_bind_ok e2).trans <| (pm_bind_ok (pm_left hw2)).trans <| (pm_bind_ok e3).trans <|
      (pm_bind_ok (pm_right hv3)).trans <| (pm_bind_ok e4).trans <| (pm_bind_ok e5).trans rfl
  · rw [hv5]; simp [relinked, BTree.ptr, hC _ _ _ _ _]
  · simp only [addrs_relinked, List.mem_append, List.mem_cons] at hb
    rw [F5 b (by grind) (by grind)]
  · intro b hb
    simp only [BTree.addrs, List.mem_append, List.mem_cons, not_or, List.cons_append] at hb
    rw [F5 b (by grind) (by grind), F4 b (by grind) (by grind), F3 b (by grind) (by grind),
      F2 b (by grind) (by grind), F1 b (by grind)]

/-- `_rotate_right_left` -/
theorem pm_rotateRightLeft (hC : C.Ok) {A B D E : ATree N X} {u v w : N × (X × Addr)}
    (H : PRep s.node p (.node A u (.node (.node B v D) w E)))
    (hn : (BTree.node A u (.node (.node B v D) w E)).addrs.Nodup) :
    ∃ nd', pRotateRightLeft C (some u.2.2) s = (.ok (some v.2.2), s.put nd') ∧
      PRep nd' p (relinked C (relinked C A u B) v (relinked C D w E)) ∧
      ∀ b, b ∉ (BTree.node A u (.node (.node B v D) w E)).addrs → nd' b = s.node b := by
  obtain ⟨Hu, HA, Hw, ⟨Hv, HB, HD⟩, HE⟩ := H
  simp only [BTree.addrs, List.nodup_cons, List.nodup_append, List.mem_append, List.mem_cons, not_or,
    ne_eq, List.cons_append] at hn
  have F1 : ∀ b, b ≠ v.2.2 → upd s.node v.2.2 (some ⟨v.1, v.2.1, B.ptr, D.ptr, p⟩) b = s.node b :=
    fun b hb => upd_other _ _ hb
  -- `start_node.get_right().set_left(middle.get_right())`
  obtain ⟨nd2, e2, hw2, R2, F2⟩ := pm_setLeft (C := C) (a := w.2.2) (t := D) (r := E)
    (s := s.put (upd s.node v.2.2 (some ⟨v.1, v.2.1, B.ptr, D.ptr, p⟩)))
    (by rw [put_node, F1 _ (by grind), Hw]) (HD.frame fun b hb => F1 b (by grind)) rfl
    (HE.frame fun b hb => F1 b (by grind)) (by grind) (by grind) (by grind) (by grind)
  rw [put_node] at F2
  have HA2 : PRep nd2 (some u.2.2) A := HA.frame fun b hb => by
    rw [F2 b (by grind) (by grind), F1 b (by grind)]
  have HB2 : PRep nd2 (some v.2.2) B := HB.frame fun b hb => by
    rw [F2 b (by grind) (by grind), F1 b (by grind)]
  have HE2 : PRep nd2 (some w.2.2) E := HE.frame fun b hb => by
    rw [F2 b (by grind) (by grind), F1 b (by grind)]
  have hv2 : nd2 v.2.2 = some ⟨v.1, v.2.1, B.ptr, D.ptr, p⟩ := by
    rw [F2 _ (by grind) (by grind), upd_eq]
  have hu2 : nd2 u.2.2 = some ⟨u.1, u.2.1, A.ptr, some w.2.2, p⟩ := by
    rw [F2 _ (by grind) (by grind), F1 _ (by grind), Hu]; rfl
  -- `middle.set_right(start_node.get_right())`
  obtain ⟨nd3, e3, hv3, R3, F3⟩ := pm_setRight (C := C) (a := v.2.2) (t := relinked C D w E) (l := B)
    (s := s.put nd2) (p := some u.2.2) hv2 ⟨hw2, R2, HE2⟩ rfl HB2
    (by simp only [addrs_relinked, List.nodup_cons, List.nodup_append, List.mem_append]; grind)
    (by simp only [addrs_relinked, List.mem_append, List.mem_cons]; grind) (by grind)
    (fun b hb hb' => by simp only [addrs_relinked, List.mem_append, List.mem_cons] at hb; grind)
  simp only [put_node, addrs_relinked, List.mem_append, List.mem_cons] at F3
  have HA3 : PRep nd3 (some u.2.2) A := HA2.frame fun b hb => by rw [F3 b (by grind) (by grind)]
  have HB3 : PRep nd3 (some v.2.2) B := HB2.frame fun b hb => by rw [F3 b (by grind) (by grind)]
  have hu3 : nd3 u.2.2 = some ⟨u.1, u.2.1, A.ptr, some w.2.2, p⟩ := by
    rw [F3 _ (by grind) (by grind), hu2]
  -- `start_node.set_right(middle.get_left())`
  obtain ⟨nd4, e4, hu4, R4, F4⟩ := pm_setRight (C := C) (a := u.2.2) (t := B) (l := A)
    (s := s.put nd3) hu3 HB3 rfl HA3 (by grind) (by grind) (by grind) (by grind)
  rw [put_node] at F4
  have hv4 := (F4 v.2.2 (by grind) (by grind)).trans hv3
  have HW4 : PRep nd4 (some v.2.2) (relinked C D w E) := R3.frame fun b hb => by
    simp only [addrs_relinked, List.mem_append, List.mem_cons] at hb
    rw [F4 b (by grind) (by grind)]
  have HA4 : PRep nd4 (some u.2.2) A := HA3.frame fun b hb => by rw [F4 b (by grind) (by grind)]
  -- `middle.set_left(start_node)`
  obtain ⟨nd5, e5, hv5, R5, F5⟩ := pm_setLeft (C := C) (a := v.2.2) (t := relinked C A u B)
    (r := relinked C D w E) (s := s.put nd4) (p := p) hv4 ⟨hu4, HA4, R4⟩ rfl HW4
    (by simp only [addrs_relinked, List.nodup_cons, List.nodup_append, List.mem_append]; grind)
    (by simp only [addrs_relinked, List.mem_append, List.mem_cons]; grind)
    (by simp only [addrs_relinked, List.mem_append, List.mem_cons]; grind)
    (fun b hb hb' => by
      simp only [addrs_relinked, List.mem_append, List.mem_cons] at hb hb'; grind)
  simp only [put_node, addrs_relinked, List.mem_append, List.mem_cons] at F5
  refine ⟨nd5, ?_, ⟨?_, R5, HW4.frame fun b hb => ?_⟩, ?_⟩
  · refine (pm_bind_ok (pm_assert _ _)).trans <| (pm_bind_ok (pm_right Hu)).trans <|
      (pm_bind_ok (pm_left Hw)).trans <|
      (pm_bind_ok (pm_parent Hu)).trans <| (pm_bind_ok (pm_setParent _ Hv)).trans <|
      (pm_bind_ok (pm_right (n := ⟨u.1, u.2.1, A.ptr, some w.2.2, p⟩) (by rw [put_node, F1 _ (by grind), Hu]; rfl))).trans <|
      (pm_bind_ok (pm_right (n := ⟨v.1, v.2.1, B.ptr, D.ptr, p⟩) (by simp))).trans <|
      (pm_bind_ok e2).trans <| (pm_bind_ok (pm_right hu2)).trans <| (pm_bind_ok e3).trans <|
      (pm_bind_ok (pm_left hv3)).trans <| (pm_bind_ok e4).trans <| (pm_bind_ok e5).trans rfl
  · rw [hv5]; simp [relinked, BTree.ptr, hC _ _ _ _ _]
  · simp only [addrs_relinked, List.mem_append, List.mem_cons] at hb
    rw [F5 b (by grind) (by grind)]
  · intro b hb
    simp only [BTree.addrs, List.mem_append, List.mem_cons, not_or, List.cons_append] at hb
    rw [F5 b (by grind) (by grind), F4 b (by grind) (by grind), F3 b (by grind) (by grind),
      F2 b (by grind) (by grind), F1 b (by grind)]

end

end Extra
