import Verif.Trees.PtrZip
import Verif.Trees.Splay

/-!
# Search, insertion and removal on node objects (no property content)

Each method of `Verif/Trees/PtrTree.lean` that the search trees share, on a tree under the nodes above it.
-/

set_option linter.unusedSimpArgs false
set_option linter.unusedSectionVars false

namespace Extra
variable {N X : Type} [LinearOrder N]

section
variable {C : PClass X} {s : PTree N X} {t : ATree N X} {fs : List (AFrame N X)} {hole : Option Addr}

theorem addrs_pos {l r : ATree N X} {w : N × (X × Addr)} {n : Nat} (h : (BTree.node l w r).addrs.length ≤ n) :
    ∃ m, n = m + 1 ∧ l.addrs.length ≤ m ∧ r.addrs.length ≤ m := by
  simp only [BTree.addrs, List.length_cons, List.length_append] at h
  exact ⟨n - 1, by omega, by omega, by omega⟩

/-- `_search` -/
theorem pm_search (v : N) {p : Option Addr} (h : PRep s.node p t) (h0 : t ≠ .nil) (fuel : Nat)
    (hf : t.addrs.length ≤ fuel) : pSearch v fuel t.ptr s = (.ok (t.walk (t.search v)).ptr, s) := by
  induction t generalizing p fuel with
  | nil => exact absurd rfl h0
  | node l w r ihl ihr =>
    obtain ⟨m, rfl, hl, hr⟩ := addrs_pos hf
    rw [pSearch, BTree.ptr]
    refine (pm_bind_ok (pm_assert _ _)).trans <| (pm_bind_ok (pm_data h.1)).trans ?_
    by_cases h1 : v = w.1
    · rw [if_pos h1, show (BTree.node l w r).search v = [] by cases l <;> cases r <;> simp [BTree.search, h1]]; rfl
    · rw [if_neg h1]
      by_cases h2 : v < w.1
      · rw [if_pos h2]
        refine (pm_bind_ok (pm_left h.1)).trans ?_
        cases l with
        | nil =>
          rw [show (BTree.node .nil w r).search v = [] by cases r <;> simp [BTree.search, h1, h2]]; rfl
        | node ll lv lr =>
          rw [show (BTree.node (.node ll lv lr) w r).search v = false :: (BTree.node ll lv lr).search v by
            cases r <;> simp only [BTree.search, if_neg h1, if_pos h2]]
          exact ihl h.2.1 (by simp) m hl
      · rw [if_neg h2]
        refine (pm_bind_ok (pm_right h.1)).trans ?_
        cases r with
        | nil =>
          rw [show (BTree.node l w .nil).search v = [] by cases l <;> simp [BTree.search, h1, h2]]; rfl
        | node rl rv rr =>
          rw [show (BTree.node l w (.node rl rv rr)).search v = true :: (BTree.node rl rv rr).search v by
            cases l <;> simp only [BTree.search, if_neg h1, if_neg h2]]
          exact ihr h.2.2 (by simp) m hr

/-- `_get_min_node` -/
theorem pm_minNode {p : Option Addr} (h : PRep s.node p t) (h0 : t ≠ .nil) (fuel : Nat)
    (hf : t.addrs.length ≤ fuel) : pMinNode fuel t.ptr s = (.ok (t.walk t.minPath).ptr, s) := by
  induction t generalizing p fuel with
  | nil => exact absurd rfl h0
  | node l w r ihl ihr =>
    obtain ⟨m, rfl, hl, hr⟩ := addrs_pos hf
    rw [pMinNode, BTree.ptr]
    refine (pm_bind_ok (pm_assert _ _)).trans <| (pm_bind_ok (pm_left h.1)).trans ?_
    cases l with
    | nil => rfl
    | node ll lv lr => exact ihl h.2.1 (by simp) m hl

/-- `_get_max_node` -/
theorem pm_maxNode {p : Option Addr} (h : PRep s.node p t) (h0 : t ≠ .nil) (fuel : Nat)
    (hf : t.addrs.length ≤ fuel) : pMaxNode fuel t.ptr s = (.ok (t.walk t.maxPath).ptr, s) := by
  induction t generalizing p fuel with
  | nil => exact absurd rfl h0
  | node l w r ihl ihr =>
    obtain ⟨m, rfl, hl, hr⟩ := addrs_pos hf
    rw [pMaxNode, BTree.ptr]
    refine (pm_bind_ok (pm_assert _ _)).trans <| (pm_bind_ok (pm_right h.1)).trans ?_
    cases r with
    | nil => rfl
    | node rl rv rr => exact ihr h.2.2 (by simp) m hr

/-- a leaf -/
def leafAt (v : N) (x : X) (a : Addr) : ATree N X := .node .nil (v, (x, a)) .nil

/-- `_insert_node`: the value is there -/
theorem pm_insertNode_found {b : Addr} {n : PNode N X} {p : Option Addr} (h : PRep s.node p t)
    (hb : s.node b = some n) (h0 : t.walk (t.insertPath n.data) ≠ .nil) (fuel : Nat)
    (hf : t.addrs.length ≤ fuel) :
    pInsertNode C (some b) fuel t.ptr s =
      (.ok (t.walk (t.insertPath n.data)).ptr, { s with warned := true }) := by
  induction t generalizing p fuel with
  | nil => exact absurd rfl h0
  | node l w r ihl ihr =>
    obtain ⟨m, rfl, hl, hr⟩ := addrs_pos hf
    rw [pInsertNode, BTree.ptr]
    refine (pm_bind_ok (pm_assert _ _)).trans <| (pm_bind_ok (pm_data hb)).trans <|
      (pm_bind_ok (pm_data h.1)).trans ?_
    simp only [BTree.insertPath] at h0 ⊢
    by_cases h1 : n.data = w.1
    · rw [if_pos h1, if_pos h1]; rfl
    · rw [if_neg h1] at h0 ⊢; rw [if_neg h1]
      by_cases h2 : n.data < w.1
      · rw [if_pos h2] at h0 ⊢; rw [if_pos h2]
        refine (pm_bind_ok (pm_left h.1)).trans ?_
        cases l with
        | nil => exact absurd rfl h0
        | node ll lv lr => exact ihl h.2.1 h0 m hl
      · rw [if_neg h2] at h0 ⊢; rw [if_neg h2]
        refine (pm_bind_ok (pm_right h.1)).trans ?_
        cases r with
        | nil => exact absurd rfl h0
        | node rl rv rr => exact ihr h.2.2 h0 m hr

/-- `_insert_node`: the value is new -/
theorem pm_insertNode_new {b : Addr} {v : N} {x : X} (h : ZRep s t fs t.ptr)
    (hb : s.node b = some ⟨v, x, none, none, none⟩) (hbn : b < s.next) (hbt : b ∉ t.addrs ++ ctxAddrs fs)
    (hn : t ≠ .nil) (h0 : t.walk (t.insertPath v) = .nil) (fuel : Nat)
    (hf : t.addrs.length ≤ fuel) :
    ∃ nd', pInsertNode C (some b) fuel t.ptr s =
        (.ok (some b), { (s.put nd') with length := s.length + 1 }) ∧
      ZRep (s.put nd') (leafAt v x b) (attached C (leafAt v x b) (t.descend (t.insertPath v) fs).2) (some b) := by
  induction t generalizing fs fuel with
  | nil => exact absurd rfl hn
  | node l w r ihl ihr =>
    obtain ⟨m, rfl, hl, hr⟩ := addrs_pos hf
    rw [pInsertNode, BTree.ptr]
    have e : ∀ {γ : Type} (g : N → N → PM N X γ),
        (pAssert (some w.2.2) >>= fun _ => pData (some b) >>= fun v => pData (some w.2.2) >>= fun d => g v d) s
          = g v w.1 s := fun g =>
      (pm_bind_ok (pm_assert _ _)).trans <| (pm_bind_ok (pm_data hb)).trans <| (pm_bind_ok (pm_data h.rep.1))
    have hbm : ∀ {d : Bool} {o : ATree N X} {u : ATree N X} , (∀ a, a ∈ u.addrs ++ ctxAddrs (⟨d, w, o⟩ :: fs) →
        a ∈ (BTree.node l w r).addrs ++ ctxAddrs fs) → b ∉ u.addrs ++ ctxAddrs (⟨d, w, o⟩ :: fs) :=
      fun k hb' => hbt (k b hb')
    simp only [BTree.insertPath] at h0 ⊢
    by_cases h1 : v = w.1
    · rw [if_pos h1] at h0; exact absurd h0 (by simp [BTree.walk])
    · rw [if_neg h1] at h0 ⊢
      by_cases h2 : v < w.1
      · rw [if_pos h2] at h0 ⊢
        have hbl : b ∉ l.addrs ++ ctxAddrs (⟨true, w, r⟩ :: fs) := hbm fun a ha => by
          simp only [BTree.addrs, ctxAddrs, List.cons_append, List.mem_append, List.mem_cons] at ha ⊢; tauto
        have step : (do
            let l ← pLeft (some w.2.2)
            if l.isSome then pInsertNode C (some b) m l
            else do
              pSetLeft C (some w.2.2) (some b)
              pAddLength 1
              return (some b)) s = (if l.ptr.isSome then pInsertNode C (some b) m l.ptr else do
              pSetLeft C (some w.2.2) (some b)
              pAddLength 1
              return (some b)) s := pm_bind_ok (pm_left h.rep.1)
        cases l with
        | nil =>
          obtain ⟨nd', e1, Z⟩ := pm_setChild' (C := C) (t := leafAt v x b) (f := ⟨true, w, r⟩) (p := none)
            h.left.ctx ⟨hb, trivial, trivial⟩
            (by have := h.left.nodup
                simp only [BTree.addrs, List.nil_append, leafAt] at this hbl ⊢
                exact List.nodup_cons.mpr ⟨hbl, this⟩)
            (by have := h.left.bound
                simp only [BTree.addrs, List.nil_append, leafAt] at this ⊢
                intro a ha
                rcases List.mem_cons.mp ha with rfl | ha
                · exact hbn
                · exact this a ha)
          refine ⟨nd', ?_, Z⟩
          refine (e _).trans ?_
          rw [if_neg h1, if_pos h2]
          refine step.trans ?_
          exact (pm_bind_ok e1).trans rfl
        | node ll lv lr =>
          obtain ⟨nd', e1, Z⟩ := ihl h.left hbl (by simp) h0 m hl
          refine ⟨nd', ?_, Z⟩
          refine (e _).trans ?_
          rw [if_neg h1, if_pos h2]
          exact step.trans e1
      · rw [if_neg h2] at h0 ⊢
        have hbl : b ∉ r.addrs ++ ctxAddrs (⟨false, w, l⟩ :: fs) := hbm fun a ha => by
          simp only [BTree.addrs, ctxAddrs, List.cons_append, List.mem_append, List.mem_cons] at ha ⊢; tauto
        have step : (do
            let r ← pRight (some w.2.2)
            if r.isSome then pInsertNode C (some b) m r
            else do
              pSetRight C (some w.2.2) (some b)
              pAddLength 1
              return (some b)) s = (if r.ptr.isSome then pInsertNode C (some b) m r.ptr else do
              pSetRight C (some w.2.2) (some b)
              pAddLength 1
              return (some b)) s := pm_bind_ok (pm_right h.rep.1)
        cases r with
        | nil =>
          obtain ⟨nd', e1, Z⟩ := pm_setChild' (C := C) (t := leafAt v x b) (f := ⟨false, w, l⟩) (p := none)
            h.right.ctx ⟨hb, trivial, trivial⟩
            (by have := h.right.nodup
                simp only [BTree.addrs, List.nil_append, leafAt] at this hbl ⊢
                exact List.nodup_cons.mpr ⟨hbl, this⟩)
            (by have := h.right.bound
                simp only [BTree.addrs, List.nil_append, leafAt] at this ⊢
                intro a ha
                rcases List.mem_cons.mp ha with rfl | ha
                · exact hbn
                · exact this a ha)
          refine ⟨nd', ?_, Z⟩
          refine (e _).trans ?_
          rw [if_neg h1, if_neg h2]
          refine step.trans ?_
          exact (pm_bind_ok e1).trans rfl
        | node rl rv rr =>
          obtain ⟨nd', e1, Z⟩ := ihr h.right hbl (by simp) h0 m hr
          refine ⟨nd', ?_, Z⟩
          refine (e _).trans ?_
          rw [if_neg h1, if_neg h2]
          exact step.trans e1

/-! ## Removal -/

/-- the data at the end of a walk are exchanged for others -/
def BTree.setAt : BTree (N × X) → List Bool → N × X → BTree (N × X)
  | .nil, _, _ => .nil
  | .node l _ r, [], u => .node l u r
  | .node l w r, false :: q, u => .node (l.setAt q u) w r
  | .node l w r, true :: q, u => .node l w (r.setAt q u)

theorem setAt_ptr (t : ATree N X) (q : List Bool) {l r : ATree N X} {u : N × (X × Addr)}
    (h : t.walk q = .node l u r) (d : N) (x : X) : (t.setAt q (d, (x, u.2.2))).ptr = t.ptr := by
  cases t with
  | nil => rfl
  | node a w b =>
    rcases q with _ | ⟨_ | _, q⟩
    · simp only [BTree.walk, BTree.node.injEq] at h; simp [BTree.setAt, BTree.ptr, h.2.1]
    · rfl
    · rfl

theorem setAt_addrs (t : ATree N X) (q : List Bool) {l r : ATree N X} {u : N × (X × Addr)}
    (h : t.walk q = .node l u r) (d : N) (x : X) : (t.setAt q (d, (x, u.2.2))).addrs = t.addrs := by
  induction t generalizing q with
  | nil => rfl
  | node a w b iha ihb =>
    rcases q with _ | ⟨_ | _, q⟩
    · simp only [BTree.walk, BTree.node.injEq] at h; simp [BTree.setAt, BTree.addrs, h.2.1]
    · simp only [BTree.setAt, BTree.addrs, iha q h]
    · simp only [BTree.setAt, BTree.addrs, ihb q h]

theorem walk_mem_addrs (t : ATree N X) (q : List Bool) {l r : ATree N X} {u : N × (X × Addr)}
    (h : t.walk q = .node l u r) : u.2.2 ∈ t.addrs := by
  induction t generalizing q with
  | nil => cases q <;> simp [BTree.walk] at h
  | node a w b iha ihb =>
    rcases q with _ | ⟨_ | _, q⟩
    · simp only [BTree.walk, BTree.node.injEq] at h; simp [BTree.addrs, h.2.1]
    · simp [BTree.addrs, iha q h]
    · simp [BTree.addrs, ihb q h]

/-- the data of one node object are changed -/
theorem PRep.setAt {nd : Addr → Option (PNode N X)} {p : Option Addr} (h : PRep nd p t) (hn : t.addrs.Nodup)
    (q : List Bool) {l r : ATree N X} {u : N × (X × Addr)} (hu : t.walk q = .node l u r) (d : N) (x : X) :
    ∃ n, nd u.2.2 = some n ∧ n.data = u.1 ∧ n.ext = u.2.1 ∧
      PRep (upd nd u.2.2 (some { n with data := d, ext := x })) p (t.setAt q (d, (x, u.2.2))) := by
  induction t generalizing p q with
  | nil => cases q <;> simp [BTree.walk] at hu
  | node a w b iha ihb =>
    simp only [BTree.addrs, List.nodup_cons, List.nodup_append, List.mem_append, ne_eq] at hn
    rcases q with _ | ⟨_ | _, q⟩
    · simp only [BTree.walk, BTree.node.injEq] at hu
      obtain ⟨rfl, rfl, rfl⟩ := hu
      refine ⟨_, h.1, rfl, rfl, by simp, h.2.1.frame fun b hb => upd_other _ _ (by grind),
        h.2.2.frame fun b hb => upd_other _ _ (by grind)⟩
    · obtain ⟨n, h1, h2, h3, h4⟩ := iha h.2.1 (by grind) q hu
      have hm := walk_mem_addrs a q hu
      refine ⟨n, h1, h2, h3, ?_, h4, h.2.2.frame fun b hb => upd_other _ _ (by grind)⟩
      rw [upd_other _ _ (by grind), h.1, setAt_ptr a q hu]
    · obtain ⟨n, h1, h2, h3, h4⟩ := ihb h.2.2 (by grind) q hu
      have hm := walk_mem_addrs b q hu
      refine ⟨n, h1, h2, h3, ?_, h.2.1.frame fun b hb => upd_other _ _ (by grind), h4⟩
      rw [upd_other _ _ (by grind), h.1, setAt_ptr b q hu]

/-- the data a node has after `swap` with another -/
def moved (C : PClass X) (w u : N × (X × Addr)) : N × (X × Addr) :=
  (u.1, (if C.swapsExt then u.2.1 else w.2.1, w.2.2))

/-- the root of a tree swaps with the node at the end of a walk -/
def swapAt (C : PClass X) : ATree N X → List Bool → ATree N X
  | .nil, _ => .nil
  | .node l w r, q =>
    match (BTree.node l w r).walk q with
    | .nil => .node l w r
    | .node _ u _ => ((BTree.node l w r).setAt q (moved C u w)).setAt [] (moved C w u)

/-- `swap` -/
theorem pm_swap {l r a b : ATree N X} {w u : N × (X × Addr)} {d : Bool} {q : List Bool}
    (h : ZRep s (.node l w r) fs hole) (hq : (BTree.node l w r).walk (d :: q) = .node a u b) :
    ∃ nd', pSwap C (some w.2.2) (some u.2.2) s = (.ok (), s.put nd') ∧
      ZRep (s.put nd') (swapAt C (.node l w r) (d :: q)) fs hole := by
  have hn := (List.nodup_append.mp h.nodup).1
  have e0 : swapAt C (.node l w r) (d :: q) =
      ((BTree.node l w r).setAt [] (moved C w u)).setAt (d :: q) (moved C u w) := by
    simp only [swapAt, hq]; cases d <;> simp [BTree.setAt]
  have hq' : ((BTree.node l w r).setAt [] (moved C w u)).walk (d :: q) = .node a u b := by
    rw [← hq]; cases d <;> rfl
  have hne : u.2.2 ≠ w.2.2 := by
    simp only [BTree.addrs, List.nodup_cons, List.mem_append] at hn
    intro he
    refine hn.1 ?_
    rw [← he]
    cases d with
    | false => exact Or.inl (walk_mem_addrs l q hq)
    | true => exact Or.inr (walk_mem_addrs r q hq)
  obtain ⟨n, h1, h2, h3, R1⟩ := h.rep.setAt hn [] rfl u.1 (if C.swapsExt then u.2.1 else w.2.1)
  have hn1 : ((BTree.node l w r).setAt [] (moved C w u)).addrs = (BTree.node l w r).addrs :=
    setAt_addrs _ [] rfl _ _
  obtain ⟨m, k1, k2, k3, R2⟩ := PRep.setAt (t := (BTree.node l w r).setAt [] (moved C w u)) R1 (by rw [hn1]; exact hn) (d :: q) hq' w.1
    (if C.swapsExt then w.2.1 else u.2.1)
  have k0 : s.node u.2.2 = some m := by rw [← k1, upd_other _ _ hne]
  refine ⟨upd (upd s.node w.2.2 (some { n with data := u.1, ext := if C.swapsExt then u.2.1 else w.2.1 })) u.2.2
        (some { m with data := w.1, ext := if C.swapsExt then w.2.1 else u.2.1 }), ?_, ?_⟩
  rotate_left
  · refine h.change ?_ ?_ ?_
    · rw [e0]; exact R2
    · rw [e0]
      refine List.Perm.subperm ?_
      rw [show moved C u w = (w.1, (if C.swapsExt then w.2.1 else u.2.1, u.2.2)) from rfl,
        setAt_addrs _ _ hq', hn1]
    · intro c hc
      rw [upd_other, upd_other]
      · rintro rfl; exact hc (by simp [BTree.addrs])
      · rintro rfl; exact hc (walk_mem_addrs _ _ hq)
  · refine (pm_bind_ok (pm_node h1)).trans <| (pm_bind_ok (pm_node k0)).trans <|
      (pm_bind_ok (pm_setNode _ h1)).trans <| (pm_setNode (n := m) _ ?_).trans ?_
    · rw [put_node, upd_other _ _ hne, k0]
    · simp only [put_node, put_put, h2, h3, k2, k3]

/-- a node gives its data away and its subtree loses a leaf: `_transplant` from the second call on, for a node
that has children -/
def sinkC (C : PClass X) : ATree N X → ATree N X
  | .nil => .nil
  | .node .nil _ .nil => .nil
  | .node (.node .nil lv .nil) w r => relinked C .nil (moved C w lv) r
  | .node (.node (.node a u b) lv lr) w r => .node (sinkC C (.node (.node a u b) lv lr)) (moved C w lv) r
  | .node (.node .nil lv (.node a u b)) w r => .node (sinkC C (.node .nil lv (.node a u b))) (moved C w lv) r
  | .node .nil w (.node .nil rv .nil) => relinked C .nil (moved C w rv) .nil
  | .node .nil w (.node (.node a u b) rv rr) => .node .nil (moved C w rv) (sinkC C (.node (.node a u b) rv rr))
  | .node .nil w (.node .nil rv (.node a u b)) => .node .nil (moved C w rv) (sinkC C (.node .nil rv (.node a u b)))

/-- the tree is one node -/
def BTree.isLeaf {α : Type} : BTree α → Bool
  | .node .nil _ .nil => true
  | _ => false

theorem sinkC_left {l r : ATree N X} {w : N × (X × Addr)} (hl : l ≠ .nil) (hf : l.isLeaf = false) :
    ∃ a u b, l = .node a u b ∧ sinkC C (.node l w r) = .node (sinkC C l) (moved C w u) r := by
  cases l with
  | nil => exact absurd rfl hl
  | node a u b =>
    refine ⟨a, u, b, rfl, ?_⟩
    cases a with
    | nil =>
      cases b with
      | nil => simp [BTree.isLeaf] at hf
      | node c d e => rw [sinkC]
    | node c d e => rw [sinkC]

theorem sinkC_right {r : ATree N X} {w : N × (X × Addr)} (hl : r ≠ .nil) (hf : r.isLeaf = false) :
    ∃ a u b, r = .node a u b ∧ sinkC C (.node .nil w r) = .node .nil (moved C w u) (sinkC C r) := by
  cases r with
  | nil => exact absurd rfl hl
  | node a u b =>
    refine ⟨a, u, b, rfl, ?_⟩
    cases a with
    | nil =>
      cases b with
      | nil => simp [BTree.isLeaf] at hf
      | node c d e => rw [sinkC]
    | node c d e => rw [sinkC]

/-- the root's own data do not matter; its extension only if `swap` leaves it -/
theorem sinkC_root (l r : ATree N X) (w w' : N × (X × Addr)) (hf : (BTree.node l w r).isLeaf = false)
    (ha : w.2.2 = w'.2.2) (hx : C.swapsExt = true ∨ w.2.1 = w'.2.1) :
    sinkC C (.node l w r) = sinkC C (.node l w' r) := by
  have hm : ∀ u : N × (X × Addr), moved C w u = moved C w' u := by
    intro u
    unfold moved
    rcases hx with hx | hx
    · rw [ha]; simp [hx]
    · rw [ha, hx]
  cases l with
  | nil =>
    cases r with
    | nil => simp [BTree.isLeaf] at hf
    | node a u b => cases a <;> cases b <;> simp only [sinkC, hm]
  | node a u b => cases a <;> cases b <;> simp only [sinkC, hm]

theorem sinkC_ptr (l r : ATree N X) (w : N × (X × Addr)) (hf : (BTree.node l w r).isLeaf = false) :
    (sinkC C (.node l w r)).ptr = some w.2.2 := by
  cases l with
  | nil =>
    cases r with
    | nil => simp [BTree.isLeaf] at hf
    | node a u b => cases a <;> cases b <;> simp only [sinkC] <;> rfl
  | node a u b => cases a <;> cases b <;> simp only [sinkC] <;> rfl

/-- `_transplant(node, None)`: a leaf is taken off -/
theorem pm_transplant_leaf {l r : ATree N X} {w : N × (X × Addr)} {f : AFrame N X}
    (h : ZRep s (.node l w r) (f :: fs) (some w.2.2)) (m : Nat) :
    ∃ nd', pTransplant C (m + 1) (some w.2.2) none s = (.ok (), s.put nd') ∧
      ZRep (s.put nd') .nil (relinkFrame C f .nil :: fs) none := by
  obtain ⟨nd', e, Z⟩ := pm_setChild (C := C) h.drop
  refine ⟨nd', ?_, Z⟩
  rw [pTransplant]
  refine (pm_bind_ok (pm_assert _ _)).trans ?_
  simp only [Option.isNone_none, if_true]
  refine (pm_bind_ok (pm_parent h.rep.1)).trans <| (pm_bind_ok (pm_left h.ctx.1)).trans <| Eq.trans ?_ e
  have hn := h.nodup
  simp only [ctxAddrs, BTree.addrs, List.cons_append, List.nodup_cons, List.mem_append, List.mem_cons] at hn
  cases hl : f.left with
  | true => simp only [if_true, ctxPtr, BTree.ptr]
  | false =>
    have : f.other.ptr ≠ some w.2.2 := by
      intro he
      cases ho : f.other with
      | nil => rw [ho] at he; simp [BTree.ptr] at he
      | node a u b =>
        rw [ho] at he
        simp only [BTree.ptr, Option.some.injEq] at he
        refine hn.1 (Or.inr (Or.inr (Or.inl ?_)))
        rw [ho, ← he]; simp [BTree.addrs]
    exact congrFun (if_neg this) s

/-- `_transplant(node, child)` -/
theorem pm_transplant_sink (fuel : Nat) {s : PTree N X} {fs : List (AFrame N X)} {l r : ATree N X}
    {w : N × (X × Addr)} (h : ZRep s (.node l w r) fs (some w.2.2)) (hf : (BTree.node l w r).isLeaf = false)
    (hfu : (BTree.node l w r).addrs.length ≤ fuel) :
    ∃ nd', pTransplant C fuel (some w.2.2) (if l.ptr.isSome then l.ptr else r.ptr) s = (.ok (), s.put nd') ∧
      ZRep (s.put nd') (sinkC C (.node l w r)) fs (some w.2.2) := by
  induction fuel generalizing s fs l r w with
  | zero => simp [BTree.addrs] at hfu
  | succ m ih =>
    obtain ⟨k, hk, hl, hr⟩ := addrs_pos hfu
    obtain rfl : m = k := by omega
    have go : ∀ {a b : ATree N X} {u : N × (X × Addr)} {d : Bool} {o : ATree N X} {nd1 : Addr → Option (PNode N X)},
        (BTree.node a u b).addrs.length ≤ m →
        s.node u.2.2 = some ⟨u.1, u.2.1, a.ptr, b.ptr, some w.2.2⟩ →
        pSwap C (some w.2.2) (some u.2.2) s = (.ok (), s.put nd1) →
        ZRep (s.put nd1) (.node a (moved C u w) b) (⟨d, moved C w u, o⟩ :: fs) (some u.2.2) →
        ∃ nd', pTransplant C (m + 1) (some w.2.2) (some u.2.2) s = (.ok (), s.put nd') ∧
          ((BTree.node a u b).isLeaf = true →
            ZRep (s.put nd') .nil (relinkFrame C ⟨d, moved C w u, o⟩ .nil :: fs) none) ∧
          ((BTree.node a u b).isLeaf = false →
            ZRep (s.put nd') (sinkC C (.node a u b)) (⟨d, moved C w u, o⟩ :: fs) (some u.2.2)) := by
      intro a b u d o nd1 hlen hu hsw Z
      have e1 : ∀ {q : Option Addr}, q = (if (a.ptr.isNone && b.ptr.isNone) then none else
          if a.ptr.isSome then a.ptr else b.ptr) →
          pTransplant C (m + 1) (some w.2.2) (some u.2.2) s = pTransplant C m (some u.2.2) q (s.put nd1) := by
        rintro q rfl
        rw [pTransplant]
        refine (pm_bind_ok (pm_assert _ _)).trans ?_
        simp only [Option.isNone_some, Bool.false_eq_true, if_false]
        exact (pm_bind_ok (pm_isLeaf hu)).trans <| (pm_bind_ok (pm_left hu)).trans <|
          (pm_bind_ok (pm_right hu)).trans <| (pm_bind_ok hsw)
      cases hlf : (BTree.node a u b).isLeaf with
      | true =>
        have hab : a = .nil ∧ b = .nil := by cases a <;> cases b <;> simp [BTree.isLeaf] at hlf ⊢
        obtain ⟨rfl, rfl⟩ := hab
        obtain ⟨k, rfl⟩ : ∃ k, m = k + 1 := by
          simp only [BTree.addrs, List.length_cons] at hlen; exact ⟨m - 1, by omega⟩
        obtain ⟨nd2, e2, Z2⟩ := pm_transplant_leaf (C := C) Z k
        exact ⟨nd2, (e1 rfl).trans e2, fun _ => Z2, fun h => by simp at h⟩
      | false =>
        obtain ⟨nd2, e2, Z2⟩ := ih (w := moved C u w) Z (by cases a <;> cases b <;> simp [BTree.isLeaf] at hlf ⊢) (by
          simpa [BTree.addrs] using hlen)
        refine ⟨nd2, (e1 ?_).trans e2, fun h => by simp at h, fun _ => ?_⟩
        · refine (if_neg ?_).symm
          cases a <;> cases b <;> first | (simp [BTree.isLeaf] at hlf; done) | simp [BTree.ptr]
        · rw [sinkC_root a b u (moved C u w) hlf rfl]
          · exact Z2
          · cases hs : C.swapsExt <;> simp [moved, hs]
    cases l with
    | node a u b =>
      obtain ⟨nd1, e1, Z1⟩ := pm_swap (C := C) (d := false) (q := []) h rfl
      obtain ⟨nd2, e2, k1, k2⟩ := go (o := r) (d := true) hl h.rep.2.1.1 e1 Z1.left
      refine ⟨nd2, e2, ?_⟩
      cases hlf : (BTree.node a u b).isLeaf with
      | true =>
        have hab : a = .nil ∧ b = .nil := by cases a <;> cases b <;> simp [BTree.isLeaf] at hlf ⊢
        obtain ⟨rfl, rfl⟩ := hab
        exact (k1 hlf).up
      | false =>
        obtain ⟨_, _, _, he, e3⟩ := sinkC_left (C := C) (w := w) (r := r) (by simp) hlf
        cases he
        rw [e3]
        have Z3 := k2 hlf
        rw [← sinkC_ptr (C := C) _ _ _ hlf] at Z3
        exact Z3.up
    | nil =>
      cases r with
      | nil => simp [BTree.isLeaf] at hf
      | node a u b =>
        obtain ⟨nd1, e1, Z1⟩ := pm_swap (C := C) (d := true) (q := []) h rfl
        obtain ⟨nd2, e2, k1, k2⟩ := go (o := .nil) (d := false) hr h.rep.2.2.1 e1 Z1.right
        refine ⟨nd2, e2, ?_⟩
        cases hlf : (BTree.node a u b).isLeaf with
        | true =>
          have hab : a = .nil ∧ b = .nil := by cases a <;> cases b <;> simp [BTree.isLeaf] at hlf ⊢
          obtain ⟨rfl, rfl⟩ := hab
          exact (k1 hlf).up
        | false =>
          obtain ⟨_, _, _, he, e3⟩ := sinkC_right (C := C) (w := w) (by simp) hlf
          cases he
          rw [e3]
          have Z3 := k2 hlf
          rw [← sinkC_ptr (C := C) _ _ _ hlf] at Z3
          exact Z3.up

/-- the tree, under the nodes above it, after the node at the end of a walk is removed: where the replacement
was -/
def removeZ (C : PClass X) (q : List Bool) (t : ATree N X) : ATree N X × List (AFrame N X) :=
  let z := t.descend q []
  if z.1.isLeaf then (.nil, attached C .nil z.2)
  else
    let y := (swapAt C z.1 z.1.replacementPath).descend z.1.replacementPath z.2
    if y.1.isLeaf then (.nil, attached C .nil y.2) else (sinkC C y.1, y.2)

theorem isLeaf_iff {l r : ATree N X} {w : N × (X × Addr)} :
    (BTree.node l w r).isLeaf = true ↔ l = .nil ∧ r = .nil := by
  cases l <;> cases r <;> simp [BTree.isLeaf]

theorem minPath_walk (t : BTree (N × X)) (h : t ≠ .nil) : t.walk t.minPath ≠ .nil := by
  induction t with
  | nil => exact absurd rfl h
  | node l w r ihl ihr =>
    cases l with
    | nil => simp [BTree.minPath, BTree.walk]
    | node a u b => exact ihl (by simp)

theorem maxPath_walk (t : BTree (N × X)) (h : t ≠ .nil) : t.walk t.maxPath ≠ .nil := by
  induction t with
  | nil => exact absurd rfl h
  | node l w r ihl ihr =>
    cases r with
    | nil => simp [BTree.maxPath, BTree.walk]
    | node a u b => exact ihr (by simp)

theorem replacementPath_walk (l r : BTree (N × X)) (w : N × X) (h : ¬(l = .nil ∧ r = .nil)) :
    ∃ d q a u b, (BTree.node l w r).replacementPath = d :: q ∧ (BTree.node l w r).walk (d :: q) = .node a u b := by
  cases r with
  | node rl rv rr =>
    have := minPath_walk (.node rl rv rr) (by simp)
    cases h1 : (BTree.node rl rv rr).walk (BTree.node rl rv rr).minPath with
    | nil => exact absurd h1 this
    | node a u b => exact ⟨true, _, a, u, b, by simp only [BTree.replacementPath], h1⟩
  | nil =>
    cases l with
    | nil => simp at h
    | node ll lv lr =>
      have := maxPath_walk (.node ll lv lr) (by simp)
      cases h1 : (BTree.node ll lv lr).walk (BTree.node ll lv lr).maxPath with
      | nil => exact absurd h1 this
      | node a u b => exact ⟨false, _, a, u, b, by simp only [BTree.replacementPath], h1⟩

theorem pm_findReplacement {l r : ATree N X} {w : N × (X × Addr)} {p : Option Addr} (h : PRep s.node p (.node l w r))
    (fuel : Nat) (hf : (BTree.node l w r).addrs.length ≤ fuel) :
    pFindReplacement fuel (some w.2.2) s =
      (.ok (if (BTree.node l w r).isLeaf then none else ((BTree.node l w r).walk (BTree.node l w r).replacementPath).ptr),
        s) := by
  obtain ⟨m, rfl, hl, hr⟩ := addrs_pos hf
  refine (pm_bind_ok (pm_assert _ _)).trans <| (pm_bind_ok (pm_right h.1)).trans ?_
  cases r with
  | node rl rv rr =>
    simp only [BTree.ptr, Option.isSome_some, if_true]
    have := pm_minNode h.2.2 (by simp) (m + 1) (by omega)
    simp only [BTree.ptr] at this
    refine this.trans ?_
    rw [if_neg (by simp [isLeaf_iff]), show (BTree.node l w (.node rl rv rr)).replacementPath = true :: (BTree.node rl rv rr).minPath by
      simp only [BTree.replacementPath]]
    rfl
  | nil =>
    simp only [BTree.ptr, Option.isSome_none, Bool.false_eq_true, if_false]
    refine (pm_bind_ok (pm_left h.1)).trans ?_
    cases l with
    | nil => rfl
    | node ll lv lr =>
      simp only [BTree.ptr, Option.isSome_some, if_true]
      have := pm_maxNode h.2.1 (by simp) (m + 1) (by omega)
      simp only [BTree.ptr] at this
      refine this.trans ?_
      rw [if_neg (by simp [isLeaf_iff]), show (BTree.node (.node ll lv lr) w .nil).replacementPath = false :: (BTree.node ll lv lr).maxPath by
        simp only [BTree.replacementPath]]
      rfl

theorem descend_fst (t : BTree (N × X)) (q : List Bool) (fs : List (Above N X)) :
    (t.descend q fs).1 = t.walk q := by
  induction t generalizing q fs with
  | nil => rcases q with _ | ⟨_, q⟩ <;> simp [BTree.descend, BTree.walk]
  | node l w r ihl ihr => rcases q with _ | ⟨_ | _, q⟩ <;> simp [BTree.descend, BTree.walk, ihl, ihr]

theorem setAt_descend (t : BTree (N × X)) (q : List Bool) (u : N × X) (fs : List (Above N X)) :
    (t.setAt q u).descend q fs = ((t.descend q fs).1.setAt [] u, (t.descend q fs).2) := by
  induction t generalizing q fs with
  | nil => rcases q with _ | ⟨_, q⟩ <;> simp [BTree.descend, BTree.setAt]
  | node l w r ihl ihr => rcases q with _ | ⟨_ | _, q⟩ <;> simp [BTree.descend, BTree.setAt, ihl, ihr]

theorem attached_ptr (C : PClass X) (t : ATree N X) (fs : List (AFrame N X)) :
    ctxPtr (attached C t fs) = ctxPtr fs := by
  cases fs <;> rfl

theorem descend_ne (t : BTree (N × X)) (q : List Bool) (fs : List (Above N X)) (h : fs ≠ []) :
    (t.descend q fs).2 ≠ [] := by
  induction t generalizing q fs with
  | nil => rcases q with _ | ⟨_, q⟩ <;> exact h
  | node l w r ihl ihr =>
    rcases q with _ | ⟨_ | _, q⟩
    · exact h
    · exact ihl _ _ (by simp)
    · exact ihr _ _ (by simp)

theorem descend_ctxPtr (t : ATree N X) (q : List Bool) (f g : AFrame N X) (fs gs : List (AFrame N X))
    (h : f.w.2.2 = g.w.2.2) : ctxPtr (t.descend q (f :: fs)).2 = ctxPtr (t.descend q (g :: gs)).2 := by
  induction t generalizing q f g fs gs with
  | nil => rcases q with _ | ⟨_, q⟩ <;> simp [BTree.descend, ctxPtr, h]
  | node l w r ihl ihr =>
    rcases q with _ | ⟨_ | _, q⟩
    · simp [BTree.descend, ctxPtr, h]
    · exact ihl _ _ _ _ _ rfl
    · exact ihr _ _ _ _ _ rfl

theorem swapAt_ptr (C : PClass X) (l r : ATree N X) (w : N × (X × Addr)) (q : List Bool) :
    (swapAt C (.node l w r) q).ptr = some w.2.2 := by
  cases h : (BTree.node l w r).walk q with
  | nil => simp [swapAt, h, BTree.ptr]
  | node a u b =>
    simp only [swapAt, h]
    rcases q with _ | ⟨_ | _, q⟩ <;> simp [BTree.setAt, BTree.ptr, moved]

theorem swapAt_descend (C : PClass X) {l r a b : ATree N X} {w u : N × (X × Addr)} {d : Bool} {q : List Bool}
    (h : (BTree.node l w r).walk (d :: q) = .node a u b) (fs : List (AFrame N X)) :
    (swapAt C (.node l w r) (d :: q)).descend (d :: q) fs =
      (.node a (moved C u w) b, ((BTree.node l (moved C w u) r).descend (d :: q) fs).2) := by
  have e : swapAt C (.node l w r) (d :: q) = (BTree.node l (moved C w u) r).setAt (d :: q) (moved C u w) := by
    simp only [swapAt, h]; cases d <;> simp [BTree.setAt]
  have h' : (BTree.node l (moved C w u) r).walk (d :: q) = .node a u b := by
    rw [← h]; cases d <;> rfl
  rw [e, setAt_descend, descend_fst, h']; rfl

/-- `_remove` of a value that is not there -/
theorem pm_remove_missing {v : N} (h : ZRep s t [] t.ptr) (h0 : t ≠ .nil) (hv : t.dataAt (t.search v) ≠ some v)
    (hw : t.walk (t.search v) ≠ .nil)
    (fuel : Nat) (hf : s.next ≤ fuel) :
    pRemove C fuel v s = (.ok (t.walk (t.search v)).ptr, { s with warned := true }) := by
  obtain ⟨l, w, r, rfl⟩ : ∃ l w r, t = .node l w r := by
    cases t with
    | nil => exact absurd rfl h0
    | node l w r => exact ⟨_, _, _, rfl⟩
  have Z := h.descend (q := (BTree.node l w r).search v)
  have hd := descend_fst (BTree.node l w r) ((BTree.node l w r).search v) []
  rw [hd] at Z
  have e0 : pRoot s = (.ok (some w.2.2), s) := by rw [pm_root, show s.root = some w.2.2 from h.ctx]
  have h1 := pm_search v h.rep (by simp) fuel (h.length_le.trans hf)
  unfold BTree.dataAt at hv
  cases he : (BTree.node l w r).walk ((BTree.node l w r).search v) with
  | nil => exact absurd he hw
  | node a u b =>
    rw [he] at h1 Z hv
    rw [pRemove]
    refine (pm_bind_ok e0).trans <| (pm_bind_ok (pm_assert _ _)).trans <| (pm_bind_ok h1).trans <| (pm_bind_ok (pm_data Z.rep.1)).trans ?_
    rw [if_pos (fun e => hv (by rw [← e]))]
    rfl

/-- `_remove` of a value that is there -/
theorem pm_remove_found {v : N} (h : ZRep s t [] t.ptr) (h0 : t.isLeaf = false)
    (hv : t.dataAt (t.search v) = some v) (fuel : Nat) (hf : s.next + 1 ≤ fuel) :
    ∃ nd', pRemove C fuel v s = (.ok (ctxPtr (removeZ C (t.search v) t).2),
        { (s.put nd') with length := s.length - 1 }) ∧
      ZRep (s.put nd') (removeZ C (t.search v) t).1 (removeZ C (t.search v) t).2
        (removeZ C (t.search v) t).1.ptr := by
  obtain ⟨l, w, r, rfl⟩ : ∃ l w r, t = .node l w r := by
    cases t with
    | nil => simp [BTree.dataAt, BTree.search, BTree.walk] at hv
    | node l w r => exact ⟨_, _, _, rfl⟩
  obtain ⟨m, rfl⟩ : ∃ m, fuel = m + 1 := ⟨fuel - 1, by omega⟩
  have hm : s.next ≤ m := by omega
  have Z := h.descend (q := (BTree.node l w r).search v)
  have hd := descend_fst (BTree.node l w r) ((BTree.node l w r).search v) []
  have e0 : pRoot s = (.ok (some w.2.2), s) := by rw [pm_root, show s.root = some w.2.2 from h.ctx]
  have h1 := pm_search v h.rep (by simp) (m + 1) (h.length_le.trans (by omega))
  unfold BTree.dataAt at hv
  cases he : (BTree.node l w r).walk ((BTree.node l w r).search v) with
  | nil => rw [he] at hv; simp at hv
  | node a u b =>
    rw [hd, he] at Z
    rw [he] at h1 hv
    simp only [Option.some.injEq] at hv
    have h2 := pm_findReplacement Z.rep (m + 1) (Z.length_le.trans (by omega))
    have start : pRemove C (m + 1) v s = (fun p : Option Addr => (do
          let parent ← if p.isNone then pParent (some u.2.2) else pParent p
          pTransplant C (m + 1) (some u.2.2) p
          pAddLength (-1)
          return parent : PM N X (Option Addr))) (if (BTree.node a u b).isLeaf then none else
          ((BTree.node a u b).walk (BTree.node a u b).replacementPath).ptr) s := by
      rw [pRemove]
      refine (pm_bind_ok e0).trans <| (pm_bind_ok (pm_assert _ _)).trans <| (pm_bind_ok h1).trans <|
        (pm_bind_ok (pm_data Z.rep.1)).trans ?_
      rw [if_neg (by simp [hv])]
      exact (pm_bind_ok h2)
    rw [start]
    simp only [removeZ, hd, he]
    cases hlf : (BTree.node a u b).isLeaf with
    | true =>
      simp only [if_true]
      cases hfs : ((BTree.node l w r).descend ((BTree.node l w r).search v) []).2 with
      | nil =>
        exfalso
        cases hs : (BTree.node l w r).search v with
        | nil =>
          rw [hs] at he
          simp only [BTree.walk, BTree.node.injEq] at he
          obtain ⟨rfl, rfl, rfl⟩ := he
          rw [h0] at hlf; exact absurd hlf (by simp)
        | cons d q =>
          rw [hs] at hfs
          cases d
          · exact descend_ne l q _ (by simp) hfs
          · exact descend_ne r q _ (by simp) hfs
      | cons f gs =>
        rw [hfs] at Z
        obtain ⟨nd', e, Z'⟩ := pm_transplant_leaf (C := C) Z m
        refine ⟨nd', ?_, Z'⟩
        exact (pm_bind_ok (pm_parent Z.rep.1)).trans <| (pm_bind_ok e).trans rfl
    | false =>
      have hnl : ¬(a = .nil ∧ b = .nil) := by rw [← isLeaf_iff (w := u)]; simp [hlf]
      obtain ⟨d, q, a', u', b', hq, hw⟩ := replacementPath_walk a b u hnl
      simp only [Bool.false_eq_true, if_false, hq, hw]
      generalize ((BTree.node l w r).descend ((BTree.node l w r).search v) []).2 = gs at *
      obtain ⟨nd1, e1, Z1⟩ := pm_swap (C := C) Z hw
      have Z0 : ZRep s (.node a' u' b') ((BTree.node a u b).descend (d :: q) gs).2 (some u'.2.2) := by
        have := Z.descend (q := d :: q)
        rwa [descend_fst, hw] at this
      rw [show (BTree.node a u b).ptr = (swapAt C (.node a u b) (d :: q)).ptr from (swapAt_ptr ..).symm] at Z1
      have Z2 := Z1.descend (q := d :: q)
      rw [swapAt_descend C hw] at Z2 ⊢
      have epar : ctxPtr ((BTree.node a (moved C u u') b).descend (d :: q) gs).2 =
          ctxPtr ((BTree.node a u b).descend (d :: q) gs).2 := by
        cases d
        · exact descend_ctxPtr a q _ _ _ _ rfl
        · exact descend_ctxPtr b q _ _ _ _ rfl
      have hne : ((BTree.node a (moved C u u') b).descend (d :: q) gs).2 ≠ [] := by
        cases d
        · exact descend_ne a q _ (by simp)
        · exact descend_ne b q _ (by simp)
      generalize ((BTree.node a (moved C u u') b).descend (d :: q) gs).2 = gs' at *
      -- `_transplant(removed, replacement)` swaps and goes on at the replacement
      have step : ∀ {k : PM N X (Option Addr)}, k = (do
          let parent ← if (BTree.node a' u' b').ptr.isNone then pParent (some u.2.2) else pParent (BTree.node a' u' b').ptr
          pTransplant C (m + 1) (some u.2.2) (BTree.node a' u' b').ptr
          pAddLength (-1)
          return parent) →
          ∀ nd', pTransplant C m (some u'.2.2) (if a'.ptr.isNone && b'.ptr.isNone then none else
            if a'.ptr.isSome then a'.ptr else b'.ptr) (s.put nd1) = (.ok (), s.put nd') →
          k s = (.ok (ctxPtr gs'), { (s.put nd') with length := s.length - 1 }) := by
        rintro k rfl nd' e2
        refine (pm_bind_ok (pm_parent Z0.rep.1)).trans ?_
        have e3 : pTransplant C (m + 1) (some u.2.2) (BTree.node a' u' b').ptr s = (.ok (), s.put nd') := by
          rw [pTransplant]
          refine (pm_bind_ok (pm_assert _ _)).trans <| (pm_bind_ok (pm_isLeaf Z0.rep.1)).trans <|
            (pm_bind_ok (pm_left Z0.rep.1)).trans <| (pm_bind_ok (pm_right Z0.rep.1)).trans <|
            (pm_bind_ok e1).trans e2
        refine (pm_bind_ok e3).trans ?_
        rw [epar]; rfl
      cases hlf' : (BTree.node a' (moved C u' u) b').isLeaf with
      | true =>
        obtain ⟨rfl, rfl⟩ := isLeaf_iff.mp hlf'
        cases gs' with
        | nil => exact absurd rfl hne
        | cons f fs' =>
          obtain ⟨k, rfl⟩ : ∃ k, m = k + 1 := by
            have := Z0.length_le
            simp only [BTree.addrs, List.length_cons] at this
            exact ⟨m - 1, by omega⟩
          obtain ⟨nd', e, Z'⟩ := pm_transplant_leaf (C := C) Z2 k
          exact ⟨nd', step rfl nd' e, Z'⟩
      | false =>
        obtain ⟨nd', e, Z'⟩ := pm_transplant_sink (C := C) m Z2 hlf' (Z2.length_le.trans hm)
        refine ⟨nd', step rfl nd' ?_, ?_⟩
        · rw [if_neg]
          · exact e
          · cases a' <;> cases b' <;> first | (simp [BTree.isLeaf] at hlf'; done) | simp [BTree.ptr]
        · simp only [Bool.false_eq_true, if_false]
          rw [sinkC_ptr (C := C) _ _ _ hlf']
          exact Z'

end

end Extra
