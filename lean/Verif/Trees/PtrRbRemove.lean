import Verif.Trees.PtrRbDouble

/-!
# `RedBlackTree` on node objects: the transplant of `remove`
-/

set_option linter.unusedSimpArgs false
set_option linter.unusedSectionVars false

namespace Extra
variable {N : Type} [LinearOrder N]

/-! ## Calls that keep the numbers of all node objects, in the tree or not -/

/-- every node object keeps its number -/
def KeepsData {X α : Type} (m : PM N X α) : Prop :=
  ∀ s a n, s.node a = some n → ∃ n', (m s).2.node a = some n' ∧ n'.data = n.data

section
variable {X α β : Type}

theorem keeps_bind {m : PM N X α} {f : α → PM N X β} (hm : KeepsData m) (hf : ∀ a, KeepsData (f a)) :
    KeepsData (m >>= f) := by
  intro s a n hn
  obtain ⟨n1, h1, h2⟩ := hm s a n hn
  show ∃ n', (PM.bind m f s).2.node a = some n' ∧ n'.data = n.data
  unfold PM.bind
  rcases hms : m s with ⟨r, s'⟩
  rw [hms] at h1
  cases r with
  | error e => exact ⟨n1, h1, h2⟩
  | ok b =>
    obtain ⟨n2, h3, h4⟩ := hf b s' a n1 h1
    exact ⟨n2, h3, h4.trans h2⟩

theorem keeps_read {m : PM N X α} (h : ∀ s, (m s).2 = s) : KeepsData m := by
  intro s a n hn
  rw [h s]
  exact ⟨n, hn, rfl⟩

theorem keeps_node (p : Option Addr) : KeepsData (pNode p : PM N X (PNode N X)) := keeps_read fun s => by
  unfold pNode
  split
  · rfl
  · split <;> rfl

theorem keeps_setNode (p : Option Addr) {f : PNode N X → PNode N X} (hf : ∀ n, (f n).data = n.data) :
    KeepsData (pSetNode p f) := by
  intro s a n hn
  unfold pSetNode
  split
  · exact ⟨n, hn, rfl⟩
  · rename_i b
    split
    · exact ⟨n, hn, rfl⟩
    · rename_i m hm
      by_cases hab : a = b
      · subst hab
        rw [hm, Option.some.injEq] at hn
        subst hn
        exact ⟨f m, upd_eq _ _ _, hf m⟩
      · exact ⟨n, (upd_other _ _ hab).trans hn, rfl⟩

theorem keeps_ext (p : Option Addr) : KeepsData (pExt? p : PM N X (Option X)) := by
  unfold pExt?
  split
  · exact keeps_read fun s => rfl
  · exact keeps_bind (keeps_node _) fun _ => keeps_read fun s => rfl

theorem keeps_relink (C : PClass X) (p : Option Addr) : KeepsData (pRelink C p : PM N X Unit) :=
  keeps_bind (keeps_node _) fun _ => keeps_bind (keeps_ext _) fun _ => keeps_bind (keeps_ext _) fun _ =>
    keeps_setNode _ fun _ => rfl

theorem keeps_adopt (p q : Option Addr) : KeepsData (pAdopt p q : PM N X Unit) := by
  unfold pAdopt
  split
  · exact keeps_read fun s => rfl
  · exact keeps_setNode _ fun _ => rfl

theorem keeps_setLeft (C : PClass X) (p q : Option Addr) : KeepsData (pSetLeft C p q : PM N X Unit) :=
  keeps_bind (keeps_setNode _ fun _ => rfl) fun _ => keeps_bind (keeps_adopt _ _) fun _ => keeps_relink _ _

theorem keeps_setRight (C : PClass X) (p q : Option Addr) : KeepsData (pSetRight C p q : PM N X Unit) :=
  keeps_bind (keeps_setNode _ fun _ => rfl) fun _ => keeps_bind (keeps_adopt _ _) fun _ => keeps_relink _ _

theorem keeps_transplant_leaf (C : PClass X) (n : Nat) (p : Option Addr) :
    KeepsData (pTransplant C (n + 1) p none : PM N X Unit) := by
  rw [pTransplant]
  refine keeps_bind (keeps_read fun s => by cases p <;> rfl) fun _ => ?_
  simp only [Option.isNone_none, if_true]
  refine keeps_bind (keeps_bind (keeps_node _) fun _ => keeps_read fun s => rfl) fun q =>
    keeps_bind (keeps_bind (keeps_node _) fun _ => keeps_read fun s => rfl) fun l => ?_
  split
  · exact keeps_setLeft C _ _
  · exact keeps_setRight C _ _

end

/-! ## The transplant -/

section
variable {X : Type} {s : PTree N X} {fs : List (AFrame N X)}

theorem ZRep.plugPart (G : List (AFrame N X)) {t : ATree N X} (h : ZRep s t (G ++ fs) t.ptr) :
    ZRep s (Extra.plug t G) fs (Extra.plug t G).ptr := by
  induction G generalizing t with
  | nil => exact h
  | cons f G ih =>
    rw [Extra.plug]
    have h' := ZRep.up h
    rw [← ptr_up t f] at h'
    exact ih h'

theorem plug_walk (t : BTree (N × X)) (G : List (Above N X)) : (plug t G).walk (wayOf G) = t := by
  have := plug_descend G t []
  rw [List.append_nil, descend_eq] at this
  refine (congrArg Prod.fst this).trans ?_
  cases t <;> rfl

theorem plug_above_way (t : BTree (N × X)) (G : List (Above N X)) : (plug t G).above (wayOf G) = G := by
  have := plug_descend G t []
  rw [List.append_nil, descend_eq] at this
  have h := congrArg Prod.snd this
  simp only [List.append_nil] at h
  rw [h]
  cases t <;> rfl

/-- `_transplant(removed, replacement)`, seen from the replacement -/
theorem pm_transplant_at {C : PClass X} {a b o : ATree N X} {u w : N × (X × Addr)} {sd : Bool} (G : List (AFrame N X))
    (Z : ZRep s (.node a u b) (G ++ ⟨sd, w, o⟩ :: fs) (some u.2.2)) (m : Nat) (hm : s.next ≤ m) :
    ∃ nd' gs, pTransplant C (m + 1) (some w.2.2) (some u.2.2) s = (.ok (), s.put nd') ∧
      ZRep (s.put nd') (sinkC C (.node a u b)) gs (sinkC C (.node a u b)).ptr ∧
      gs = (if (BTree.node a u b).isLeaf then attached C .nil (G ++ ⟨sd, moved C w u, o⟩ :: fs)
        else G ++ ⟨sd, moved C w u, o⟩ :: fs) ∧
      ∃ n, nd' u.2.2 = some n ∧ ((BTree.node a u b).isLeaf = true → n.data = w.1) := by
  have Z1 : ZRep s (plug (.node a u b) (G ++ [⟨sd, w, o⟩])) fs (plug (.node a u b) (G ++ [⟨sd, w, o⟩])).ptr :=
    ZRep.plugPart (G ++ [⟨sd, w, o⟩]) (by simpa [BTree.ptr] using Z)
  obtain ⟨nd1, e1, Z2⟩ : ∃ nd1, pSwap C (some w.2.2) (some u.2.2) s = (.ok (), s.put nd1) ∧
      ZRep (s.put nd1) (.node a (moved C u w) b) (G ++ ⟨sd, moved C w u, o⟩ :: fs) (some u.2.2) := by
    rw [plug_append] at Z1
    cases sd with
    | true =>
      have hq : (BTree.node (plug (.node a u b) G) w o).walk (false :: wayOf G) = .node a u b := plug_walk _ G
      obtain ⟨nd1, e1, Z2⟩ := pm_swap (C := C) (show ZRep s (.node (plug (.node a u b) G) w o) fs _ from Z1) hq
      refine ⟨nd1, e1, ?_⟩
      replace Z2 : ZRep (s.put nd1) (swapAt C (.node (plug (.node a u b) G) w o) (false :: wayOf G)) fs
        (swapAt C (.node (plug (.node a u b) G) w o) (false :: wayOf G)).ptr := by rw [swapAt_ptr]; exact Z2
      have Z3 := Z2.descend (q := false :: wayOf G)
      rw [swapAt_descend C hq] at Z3
      simp only [BTree.descend, descend_eq, plug_above_way] at Z3
      exact Z3
    | false =>
      have hq : (BTree.node o w (plug (.node a u b) G)).walk (true :: wayOf G) = .node a u b := plug_walk _ G
      obtain ⟨nd1, e1, Z2⟩ := pm_swap (C := C) (show ZRep s (.node o w (plug (.node a u b) G)) fs _ from Z1) hq
      refine ⟨nd1, e1, ?_⟩
      replace Z2 : ZRep (s.put nd1) (swapAt C (.node o w (plug (.node a u b) G)) (true :: wayOf G)) fs
        (swapAt C (.node o w (plug (.node a u b) G)) (true :: wayOf G)).ptr := by rw [swapAt_ptr]; exact Z2
      have Z3 := Z2.descend (q := true :: wayOf G)
      rw [swapAt_descend C hq] at Z3
      simp only [BTree.descend, descend_eq, plug_above_way] at Z3
      exact Z3
  have step : ∀ nd', pTransplant C m (some u.2.2) (if a.ptr.isNone && b.ptr.isNone then none else
      if a.ptr.isSome then a.ptr else b.ptr) (s.put nd1) = (.ok (), s.put nd') →
      pTransplant C (m + 1) (some w.2.2) (some u.2.2) s = (.ok (), s.put nd') := by
    intro nd' e2
    rw [pTransplant]
    exact (pm_bind_ok (pm_assert _ _)).trans <| (pm_bind_ok (pm_isLeaf Z.rep.1)).trans <|
      (pm_bind_ok (pm_left Z.rep.1)).trans <| (pm_bind_ok (pm_right Z.rep.1)).trans <| (pm_bind_ok e1).trans e2
  cases hlf : (BTree.node a u b).isLeaf with
  | true =>
    obtain ⟨rfl, rfl⟩ := isLeaf_iff.mp hlf
    obtain ⟨k, rfl⟩ : ∃ k, m = k + 1 := by
      have := Z.length_le
      simp only [BTree.addrs, List.length_cons] at this
      exact ⟨m - 1, by omega⟩
    obtain ⟨n, hn1, hn2⟩ := keeps_transplant_leaf C k (some u.2.2) (s.put nd1) u.2.2 _ Z2.rep.1
    cases hG : G ++ ⟨sd, moved C w u, o⟩ :: fs with
    | nil => simp at hG
    | cons f gs =>
      rw [hG] at Z2
      obtain ⟨nd', e, Z'⟩ := pm_transplant_leaf (C := C) (w := moved C u w) Z2 k
      refine ⟨nd', _, step nd' e, Z', rfl, n, ?_, fun _ => hn2⟩
      have e' : pTransplant C (k + 1) (some u.2.2) none (s.put nd1) = (.ok (), s.put nd') := e
      rw [e'] at hn1
      exact hn1
  | false =>
    have hlf' : (BTree.node a (moved C u w) b).isLeaf = false := by
      cases a <;> cases b <;> simp [BTree.isLeaf] at hlf ⊢
    obtain ⟨nd', e, Z'⟩ := pm_transplant_sink (C := C) m (w := moved C u w) Z2 hlf' (Z2.length_le.trans hm)
    have hsk : sinkC C (.node a (moved C u w) b) = sinkC C (.node a u b) := by
      refine sinkC_root a b _ _ hlf' ?_ ?_
      · rfl
      · cases hs : C.swapsExt <;> simp [moved, hs]
    rw [hsk] at Z'
    have hp := sinkC_ptr (C := C) a b u hlf
    refine ⟨nd', _, step nd' ?_, ?_, rfl, ?_⟩
    · rw [if_neg]
      · exact e
      · cases a <;> cases b <;> first | (simp [BTree.isLeaf] at hlf; done) | simp [BTree.ptr]
    · rw [hp]; exact Z'
    · cases hsn : sinkC C (.node a u b) with
      | nil => rw [hsn] at hp; cases hp
      | node a' u' b' =>
        rw [hsn] at hp Z'
        have : u'.2.2 = u.2.2 := by simpa [BTree.ptr] using hp
        have hn := Z'.rep.1
        rw [this] at hn
        exact ⟨_, hn, fun h => by cases h⟩

end

end Extra
