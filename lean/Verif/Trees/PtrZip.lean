import Verif.Trees.PtrRep
import Mathlib.Data.List.Nodup
import Mathlib.Data.List.Perm.Subperm

/-!
# A node object and those above it (no property content)

`ZRep s t fs hole`: the node objects of `s` hold the tree `t` under the nodes `fs` above it; the link from the
nearest of them down to `t` is `hole`, which may be out of date.
-/

namespace Extra
variable {N X : Type}

/-- a node above with its address -/
abbrev AFrame (N X : Type) := Above N (X × Addr)

/-- the link to the nearest node above -/
def ctxPtr : List (AFrame N X) → Option Addr
  | [] => none
  | f :: _ => some f.w.2.2

/-- the addresses of the nodes above and of their other children -/
def ctxAddrs : List (AFrame N X) → List Addr
  | [] => []
  | f :: fs => f.w.2.2 :: (f.other.addrs ++ ctxAddrs fs)

/-- the node objects hold the nodes above; `hole` is the link down -/
def CtxRep (nd : Addr → Option (PNode N X)) (root : Option Addr) : List (AFrame N X) → Option Addr → Prop
  | [], hole => root = hole
  | f :: fs, hole =>
    nd f.w.2.2 = some ⟨f.w.1, f.w.2.1, if f.left then hole else f.other.ptr,
      if f.left then f.other.ptr else hole, ctxPtr fs⟩ ∧
    PRep nd (some f.w.2.2) f.other ∧ CtxRep nd root fs (some f.w.2.2)

theorem CtxRep.frame {nd nd' : Addr → Option (PNode N X)} {root hole : Option Addr} {fs : List (AFrame N X)}
    (h : CtxRep nd root fs hole) (hf : ∀ a ∈ ctxAddrs fs, nd' a = nd a) : CtxRep nd' root fs hole := by
  induction fs generalizing hole with
  | nil => exact h
  | cons f fs ih =>
    obtain ⟨h1, h2, h3⟩ := h
    refine ⟨?_, h2.frame fun a ha => hf a ?_, ih h3 fun a ha => hf a ?_⟩
    · rw [hf _ (by simp [ctxAddrs]), h1]
    · simp [ctxAddrs, ha]
    · simp [ctxAddrs, ha]

/-- the node objects hold a tree under the nodes above it -/
structure ZRep (s : PTree N X) (t : ATree N X) (fs : List (AFrame N X)) (hole : Option Addr) : Prop where
  ctx : CtxRep s.node s.root fs hole
  rep : PRep s.node (ctxPtr fs) t
  nodup : (t.addrs ++ ctxAddrs fs).Nodup
  bound : ∀ a ∈ t.addrs ++ ctxAddrs fs, a < s.next

section
variable {s : PTree N X} {t l r : ATree N X} {w : N × (X × Addr)} {f : AFrame N X}
  {fs : List (AFrame N X)} {hole : Option Addr}

theorem ZRep.left (h : ZRep s (.node l w r) fs (some w.2.2)) : ZRep s l (⟨true, w, r⟩ :: fs) l.ptr := by
  obtain ⟨h1, ⟨h2, h3, h4⟩, h5, h6⟩ := h
  refine ⟨⟨h2, h4, h1⟩, h3, ?_, fun a ha => h6 a ?_⟩
  · refine (List.Perm.nodup_iff ?_).mp h5
    simp only [BTree.addrs, ctxAddrs, List.cons_append, List.append_assoc]
    exact List.perm_middle.symm
  · simp only [BTree.addrs, ctxAddrs, List.cons_append, List.mem_append, List.mem_cons] at ha ⊢; tauto

theorem ZRep.right (h : ZRep s (.node l w r) fs (some w.2.2)) : ZRep s r (⟨false, w, l⟩ :: fs) r.ptr := by
  obtain ⟨h1, ⟨h2, h3, h4⟩, h5, h6⟩ := h
  refine ⟨⟨h2, h3, h1⟩, h4, ?_, fun a ha => h6 a ?_⟩
  · refine (List.Perm.nodup_iff ?_).mp h5
    simp only [BTree.addrs, ctxAddrs, List.cons_append, List.append_assoc]
    refine (List.Perm.trans ?_ List.perm_middle.symm)
    refine List.Perm.cons _ ?_
    rw [← List.append_assoc, ← List.append_assoc]
    exact List.Perm.append_right _ List.perm_append_comm
  · simp only [BTree.addrs, ctxAddrs, List.cons_append, List.mem_append, List.mem_cons] at ha ⊢; tauto

theorem ZRep.up (h : ZRep s t (f :: fs) t.ptr) :
    ZRep s (if f.left then .node t f.w f.other else .node f.other f.w t) fs (some f.w.2.2) := by
  obtain ⟨⟨h1, h2, h3⟩, h4, h5, h6⟩ := h
  obtain ⟨d, w, o⟩ := f
  cases d with
  | true =>
    refine ⟨h3, ⟨h1, h4, h2⟩, ?_, fun a ha => h6 a ?_⟩
    · refine (List.Perm.nodup_iff ?_).mp h5
      simp only [BTree.addrs, ctxAddrs, List.cons_append, List.append_assoc, if_true]
      exact List.perm_middle
    · simp only [BTree.addrs, ctxAddrs, List.cons_append, List.mem_append, List.mem_cons, if_true] at ha ⊢; tauto
  | false =>
    refine ⟨h3, ⟨h1, h2, h4⟩, ?_, fun a ha => h6 a ?_⟩
    · refine (List.Perm.nodup_iff ?_).mp h5
      simp only [BTree.addrs, ctxAddrs, List.cons_append, List.append_assoc, Bool.false_eq_true, if_false]
      refine (List.Perm.trans List.perm_middle ?_)
      refine List.Perm.cons _ ?_
      rw [← List.append_assoc, ← List.append_assoc]
      exact List.Perm.append_right _ List.perm_append_comm
    · simp only [BTree.addrs, ctxAddrs, List.cons_append, List.mem_append, List.mem_cons, Bool.false_eq_true,
        if_false] at ha ⊢; tauto

theorem ptr_up (t : ATree N X) (f : AFrame N X) :
    (if f.left then BTree.node t f.w f.other else .node f.other f.w t).ptr = some f.w.2.2 := by
  split <;> rfl

theorem ZRep.plug [LinearOrder N] (h : ZRep s t fs t.ptr) :
    ZRep s (plug t fs) [] (plug t fs).ptr := by
  induction fs generalizing t with
  | nil => exact h
  | cons f fs ih =>
    rw [Extra.plug]
    exact ih (by rw [ptr_up]; exact h.up)

theorem ZRep.descend [LinearOrder N] {q : List Bool} (h : ZRep s t fs t.ptr) :
    ZRep s (t.descend q fs).1 (t.descend q fs).2 (t.descend q fs).1.ptr := by
  induction q generalizing t fs with
  | nil => cases t <;> exact h
  | cons d q ih =>
    cases t with
    | nil => exact h
    | node l w r =>
      cases d with
      | false => exact ih h.left
      | true => exact ih h.right

/-- a change of the subtree only -/
theorem ZRep.change {t' : ATree N X} {nd' : Addr → Option (PNode N X)} (h : ZRep s t fs hole)
    (hr : PRep nd' (ctxPtr fs) t') (hp : t'.addrs.Subperm t.addrs) (hf : ∀ b, b ∉ t.addrs → nd' b = s.node b) :
    ZRep (s.put nd') t' fs hole := by
  have hs := hp.subset
  refine ⟨h.ctx.frame fun a ha => hf a fun hb => ?_, hr, ?_, fun a ha => h.bound a ?_⟩
  · exact (List.disjoint_of_nodup_append h.nodup) hb ha
  · have hn := h.nodup
    rw [List.nodup_append] at hn ⊢
    refine ⟨?_, hn.2.1, fun a ha => hn.2.2 a (hs ha)⟩
    obtain ⟨u, h1, h2⟩ := hp
    exact h1.nodup_iff.mp (hn.1.sublist h2)
  · rcases List.mem_append.mp ha with h1 | h1
    · exact List.mem_append_left _ (hs h1)
    · exact List.mem_append_right _ h1

/-- the subtree is forgotten -/
theorem ZRep.drop (h : ZRep s t fs hole) : ZRep s .nil fs hole :=
  ⟨h.ctx, trivial, (List.nodup_append.mp h.nodup).2.1, fun a ha => h.bound a (List.mem_append_right _ (by simpa [BTree.addrs] using ha))⟩

/-- only the node objects, the root link and the bound matter -/
theorem ZRep.congr {s' : PTree N X} (h : ZRep s t fs hole) (h1 : s'.node = s.node) (h2 : s'.root = s.root)
    (h3 : s'.next = s.next) : ZRep s' t fs hole :=
  ⟨by rw [h1, h2]; exact h.ctx, by rw [h1]; exact h.rep, h.nodup, by rw [h3]; exact h.bound⟩

theorem ZRep.length_le (h : ZRep s t fs hole) : t.addrs.length ≤ s.next := by
  have hn : t.addrs.Nodup := (List.nodup_append.mp h.nodup).1
  have := (List.subperm_of_subset hn (l₂ := List.range s.next) fun a ha =>
    List.mem_range.mpr (h.bound a (by simp [ha]))).length_le
  simpa using this

end

/-- the nearest node above gets a new child: its extension is set -/
def relinkFrame (C : PClass X) (f : AFrame N X) (t : ATree N X) : AFrame N X :=
  { f with w := (f.w.1, C.relink (if f.left then t.ext? else f.other.ext?)
      (if f.left then f.other.ext? else t.ext?) f.w.2.1, f.w.2.2) }

section
variable {C : PClass X} {s : PTree N X} {t : ATree N X} {f : AFrame N X} {fs : List (AFrame N X)}
  {hole : Option Addr}

/-- the child link of the node above is set, on the side of the subtree -/
theorem pm_setChild' {p : Option Addr} (hc : CtxRep s.node s.root (f :: fs) hole) (hr : PRep s.node p t)
    (hn : (t.addrs ++ ctxAddrs (f :: fs)).Nodup) (hb : ∀ a ∈ t.addrs ++ ctxAddrs (f :: fs), a < s.next) :
    ∃ nd', (if f.left then pSetLeft C (some f.w.2.2) t.ptr else pSetRight C (some f.w.2.2) t.ptr) s =
        (.ok (), s.put nd') ∧
      ZRep (s.put nd') t (relinkFrame C f t :: fs) t.ptr := by
  have hn' := hn
  simp only [ctxAddrs, List.nodup_append, List.nodup_cons, List.mem_append, List.mem_cons] at hn'
  obtain ⟨h1, h2, h3⟩ := hc
  obtain ⟨d, w, o⟩ := f
  cases d with
  | true =>
    obtain ⟨nd', e, a', R, F⟩ := pm_setLeft (C := C) h1 hr rfl h2 (by grind) (by grind) (by grind) (by grind)
    refine ⟨nd', e, ⟨⟨a', h2.frame fun b hb => F b (by grind) (by grind), h3.frame fun b hb => F b ?_ ?_⟩, R, hn, hb⟩⟩
      <;> grind
  | false =>
    obtain ⟨nd', e, a', R, F⟩ := pm_setRight (C := C) h1 hr rfl h2 (by grind) (by grind) (by grind) (by grind)
    refine ⟨nd', e, ⟨⟨a', h2.frame fun b hb => F b (by grind) (by grind), h3.frame fun b hb => F b ?_ ?_⟩, R, hn, hb⟩⟩
      <;> grind

theorem pm_setChild (h : ZRep s t (f :: fs) hole) :
    ∃ nd', (if f.left then pSetLeft C (some f.w.2.2) t.ptr else pSetRight C (some f.w.2.2) t.ptr) s =
        (.ok (), s.put nd') ∧
      ZRep (s.put nd') t (relinkFrame C f t :: fs) t.ptr :=
  pm_setChild' h.ctx h.rep h.nodup h.bound

end

/-- the nodes above after `_attach` -/
def attached (C : PClass X) (t : ATree N X) : List (AFrame N X) → List (AFrame N X)
  | [] => []
  | f :: fs => relinkFrame C f t :: fs

/-- comparing numbers gives the side the subtree is on -/
def sidesOk [LinearOrder N] (fs : List (AFrame N X)) (c : N) : Bool :=
  match fs with
  | [] => true
  | f :: _ => sideOk f c

/-- `_attach` -/
theorem pm_attach [LinearOrder N] {C : PClass X} {s : PTree N X} {l r : ATree N X} {w : N × (X × Addr)}
    {fs : List (AFrame N X)} {hole : Option Addr} (h : ZRep s (.node l w r) fs hole)
    (hs : sidesOk fs w.1 = true) :
    ∃ s', pAttach C (ctxPtr fs) (some w.2.2) s = (.ok (), s') ∧
      ZRep s' (.node l w r) (attached C (.node l w r) fs) (some w.2.2) ∧
      s'.next = s.next ∧ s'.length = s.length ∧ s'.warned = s.warned := by
  cases fs with
  | nil =>
    refine ⟨{ s with root := some w.2.2 }, rfl, ⟨rfl, h.rep, h.nodup, h.bound⟩, rfl, rfl, rfl⟩
  | cons f fs =>
    obtain ⟨nd', e, Z⟩ := pm_setChild (C := C) h
    refine ⟨s.put nd', ?_, Z, rfl, rfl, rfl⟩
    refine (pm_bind_ok (pm_assert _ _)).trans ?_
    simp only [ctxPtr, Option.isNone_some, Bool.false_eq_true]
    refine (pm_bind_ok (pm_data h.ctx.1)).trans <| (pm_bind_ok (pm_data h.rep.1)).trans ?_
    refine Eq.trans ?_ e
    simp only [sidesOk, sideOk, beq_iff_eq] at hs
    cases hl : f.left with
    | true =>
      rw [hl, decide_eq_true_iff] at hs
      rw [if_pos hs]; rfl
    | false =>
      rw [hl, decide_eq_false_iff_not] at hs
      rw [if_neg hs]; rfl

end Extra
