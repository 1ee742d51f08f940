import Verif.Trees.TreeIterationProofs
import Verif.Trees.PtrBst

/-!
# Iterating over a search tree while values are put in: the node objects

The addresses in the lists of the generator stand for values of the tree; the values follow
Verif/Trees/TreeIterationProofs.lean.
-/

set_option linter.unusedSectionVars false

namespace Extra
variable {N X Y : Type} [LinearOrder N]

/-- `a` is the node of the value `x` -/
def At (T : ATree N X) (a : Addr) (x : N) : Prop := ∃ w ∈ T.inorder, w.1 = x ∧ w.2.2 = a

theorem bare_inorder (t : BTree (N × Y)) : t.bare.inorder = t.inorder.map Prod.fst := by
  induction t with
  | nil => rfl
  | node l w r ihl ihr => simp [BTree.bare, BTree.inorder, ihl, ihr]

theorem bare_mapExt {Z : Type} (f : Y → Z) (t : BTree (N × Y)) : (t.mapExt f).bare = t.bare := by
  induction t with
  | nil => rfl
  | node l w r ihl ihr => rw [mapExt_node]; simp only [BTree.bare, ihl, ihr]

theorem ptr_at (T : ATree N X) : List.Forall₂ (At T) T.ptr.toList T.bare.top := by
  cases T with
  | nil => exact .nil
  | node l w r => exact .cons ⟨w, by simp [BTree.inorder], rfl, rfl⟩ .nil

theorem At.mono {T T' : ATree N X} (h : ∀ w ∈ T.inorder, w ∈ T'.inorder) {a : Addr} {x : N} (k : At T a x) :
    At T' a x := by
  obtain ⟨w, h1, h2⟩ := k
  exact ⟨w, h w h1, h2⟩

/-- a node holds its value, and its children hold the values below -/
theorem at_node {s : PTree N X} {T : ATree N X} {p : Option Addr} (h : PRep s.node p T) (hn : T.bare.inorder.Nodup)
    {a : Addr} {x : N} (k : At T a x) :
    (∃ n, s.node a = some n ∧ n.data = x) ∧ List.Forall₂ (At T) (pChildren s a) (T.bare.kids x) := by
  obtain ⟨w, hw, rfl, rfl⟩ := k
  induction T generalizing p with
  | nil => simp [BTree.inorder] at hw
  | node l u r ihl ihr =>
    simp only [BTree.bare] at hn
    obtain ⟨n1, n2, n3, n4, n5⟩ := nodup_parts hn
    have hwl : w ∈ l.inorder → w.1 ∈ l.bare.inorder := fun h => by
      rw [bare_inorder]; exact List.mem_map_of_mem h
    have hwr : w ∈ r.inorder → w.1 ∈ r.bare.inorder := fun h => by
      rw [bare_inorder]; exact List.mem_map_of_mem h
    have ml : ∀ {a : Addr} {x : N}, At l a x → At (.node l u r) a x := fun k =>
      k.mono fun w hw => by simp [BTree.inorder, hw]
    have mr : ∀ {a : Addr} {x : N}, At r a x → At (.node l u r) a x := fun k =>
      k.mono fun w hw => by simp [BTree.inorder, hw]
    simp only [BTree.inorder, List.mem_append, List.mem_singleton] at hw
    simp only [BTree.bare, BTree.kids]
    rcases hw with (hw | rfl) | hw
    · obtain ⟨k1, k2⟩ := ihl h.2.1 n1 hw
      have hne : w.1 ≠ u.1 := fun hc => n3 (hc ▸ hwl hw)
      have hab : r.bare.kids w.1 = [] := kids_absent (n5 _ (hwl hw))
      rw [if_neg hne, hab, List.append_nil]
      exact ⟨k1, k2.imp fun _ _ => ml⟩
    · rw [if_pos rfl]
      refine ⟨⟨_, h.1, rfl⟩, ?_⟩
      simp only [pChildren, h.1]
      exact List.rel_append ((ptr_at l).imp fun _ _ => ml) ((ptr_at r).imp fun _ _ => mr)
    · obtain ⟨k1, k2⟩ := ihr h.2.2 n2 hw
      have hne : w.1 ≠ u.1 := fun hc => n4 (hc ▸ hwr hw)
      have hab : l.bare.kids w.1 = [] := kids_absent fun hc => n5 _ hc (hwr hw)
      rw [if_neg hne, hab, List.nil_append]
      exact ⟨k1, k2.imp fun _ _ => mr⟩

/-! ## Putting a value in -/

theorem insert_bare (v : N × Y) (t : BTree (N × Y)) : (t.insertNode v).1.bare = t.bare.plant v.1 := by
  induction t with
  | nil => rfl
  | node l w r ihl ihr =>
    rw [insertNode_node]
    rcases lt_trichotomy v.1 w.1 with h | h | h
    · rw [if_neg h.ne, if_pos h]; simp only [BTree.bare, BTree.plant, if_pos h, ihl]
    · rw [if_pos h]; simp [BTree.bare, BTree.plant, h]
    · rw [if_neg h.ne', if_neg h.not_gt]; simp only [BTree.bare, BTree.plant, if_neg h.not_gt, if_pos h, ihr]

theorem insert_mem (v : N × Y) (t : BTree (N × Y)) : ∀ w ∈ t.inorder, w ∈ (t.insertNode v).1.inorder := by
  induction t with
  | nil => intro w hw; simp [BTree.inorder] at hw
  | node l u r ihl ihr =>
    intro w hw
    rw [insertNode_node]
    simp only [BTree.inorder, List.mem_append, List.mem_singleton] at hw
    split_ifs <;> simp only [BTree.inorder, List.mem_append, List.mem_singleton] <;>
      rcases hw with (hw | hw) | hw <;> simp_all

/-- in order -/
def Ordered (t : BTree N) : Prop := t.inorder.Pairwise (· < ·)

theorem ordered_parts {l r : BTree N} {w : N} : Ordered (.node l w r) ↔
    Ordered l ∧ Ordered r ∧ (∀ x ∈ l.inorder, x < w) ∧ ∀ x ∈ r.inorder, w < x := by
  unfold Ordered
  rw [inorder_mid, List.pairwise_append, List.pairwise_cons]
  constructor
  · rintro ⟨h1, ⟨h2, h3⟩, h4⟩
    exact ⟨h1, h3, fun x hx => h4 x hx w (by simp), h2⟩
  · rintro ⟨h1, h2, h3, h4⟩
    refine ⟨h1, ⟨h4, h2⟩, fun x hx y hy => ?_⟩
    rcases List.mem_cons.1 hy with rfl | hy
    · exact h3 x hx
    · exact (h3 x hx).trans (h4 y hy)

theorem Ordered.nodup {t : BTree N} (h : Ordered t) : t.inorder.Nodup := h.imp fun h => h.ne

theorem plant_mem (v : N) (t : BTree N) : ∀ x ∈ (t.plant v).inorder, x = v ∨ x ∈ t.inorder := by
  induction t with
  | nil => intro x hx; simp [BTree.plant, BTree.inorder] at hx; exact .inl hx
  | node l w r ihl ihr =>
    intro x hx
    rw [BTree.plant] at hx
    rw [inorder_mid]
    split_ifs at hx <;> rw [inorder_mid] at hx <;> simp only [List.mem_append, List.mem_cons] at hx ⊢ <;>
      rcases hx with hx | hx | hx <;> (try have := ihl x) <;> (try have := ihr x) <;> tauto

theorem plant_ordered (v : N) {t : BTree N} (h : Ordered t) : Ordered (t.plant v) := by
  induction t with
  | nil => simp [Ordered, BTree.plant, BTree.inorder]
  | node l w r ihl ihr =>
    obtain ⟨h1, h2, h3, h4⟩ := ordered_parts.1 h
    rw [BTree.plant]
    split_ifs with a b
    · refine ordered_parts.2 ⟨ihl h1, h2, fun x hx => ?_, h4⟩
      rcases plant_mem v l x hx with rfl | hx
      · exact a
      · exact h3 x hx
    · refine ordered_parts.2 ⟨h1, ihr h2, h3, fun x hx => ?_⟩
      rcases plant_mem v r x hx with rfl | hx
      · exact b
      · exact h4 x hx
    · exact h

theorem plant_there {v : N} {t : BTree N} (h : Ordered t) (hv : v ∈ t.inorder) : t.plant v = t := by
  induction t with
  | nil => simp [BTree.inorder] at hv
  | node l w r ihl ihr =>
    obtain ⟨h1, h2, h3, h4⟩ := ordered_parts.1 h
    rw [inorder_mid, List.mem_append, List.mem_cons] at hv
    rw [BTree.plant]
    rcases hv with hv | rfl | hv
    · rw [if_pos (h3 v hv), ihl h1 hv]
    · simp
    · rw [if_neg (h4 v hv).not_gt, if_pos (h4 v hv), ihr h2 hv]

theorem put_tree {w : Walk N} (h : Ordered w.tree) (v : N) : (w.put v).tree = w.tree.plant v := by
  unfold Walk.put
  split_ifs with h1 h2
  · rw [plant_there h (mem_byLevel.1 h1)]
  · rfl
  · rfl

theorem put_given (w : Walk N) (v : N) : (w.put v).given = w.given := by
  unfold Walk.put; split_ifs <;> rfl

theorem put_over (w : Walk N) (v : N) : (w.put v).over = w.over := by
  unfold Walk.put; split_ifs <;> rfl

theorem put_fresh {w : Walk N} (v : N) (hg : w.given = []) (hl : w.lost = []) : (w.put v).lost = [] := by
  unfold Walk.put; split_ifs with h1 h2
  · exact hl
  · simp [hg, hl] at h2
  · exact hl

/-! ## The calls -/

/-- what a call that is allowed does to the tree -/
def BTree.after (t : BTree N) : BstOp N → BTree N
  | .insert (.num v) => t.plant v
  | _ => t

theorem calm_exec {s : PTree N Unit} {T : ATree N Unit} (Z : ZRep s T [] T.ptr) (op : BstOp N) (hc : Calm (.call op)) :
    ∃ T', ZRep (pBstExec s op).2 T' [] T'.ptr ∧ T'.bare = T.bare.after op ∧ ∀ w ∈ T.inorder, w ∈ T'.inorder := by
  have Z0 : ZRep { s with warned := false } T [] T.ptr := Z.congr rfl rfl rfl
  have snd : ∀ {m : PM N Unit (BstVal N)} {r : Except Err (BstVal N)} {s' : PTree N Unit} ,
      m { s with warned := false } = (r, s') → (pCall m s).2 = s' := by
    intro m r s' e; cases r <;> simp only [pCall, e]
  have same : ∀ {s' : PTree N Unit}, s' = { s with warned := false } → ∃ T', ZRep s' T' [] T'.ptr ∧
      T'.bare = T.bare ∧ ∀ w ∈ T.inorder, w ∈ T'.inorder := by
    rintro _ rfl
    exact ⟨T, Z0, rfl, fun _ h => h⟩
  cases op with
  | insert v =>
    cases v with
    | none => exact ⟨T, Z.congr rfl rfl rfl, rfl, fun _ h => h⟩
    | other => exact ⟨T, Z.congr rfl rfl rfl, rfl, fun _ h => h⟩
    | num v =>
      have key : ∃ s', pInsertNum (fun v => do pInsert (plainClass Unit) () (← pFuel) v) () (.num v)
          { s with warned := false } = (.ok .unit, s') ∧
          ZRep s' (T.insertNode (v, ((), s.next))).1 [] (T.insertNode (v, ((), s.next))).1.ptr := by
        cases T with
        | nil =>
          obtain ⟨s', e, Z', _⟩ := pm_insertNum_empty (s := { s with warned := false })
            (fun v => do pInsert (plainClass Unit) () (← pFuel) v) () v (Z.root rfl)
          exact ⟨s', e, Z'⟩
        | node l w r =>
          have e0 : pRoot { s with warned := false } = (.ok (some w.2.2), { s with warned := false }) := by
            rw [pm_root, Z0.root rfl]; rfl
          have hfin : ∀ (a : Option Addr) (s' : PTree N Unit),
              pInsert (plainClass Unit) () (s.next + 1) v { s with warned := false } = (.ok a, s') →
              pInsertNum (fun v => do pInsert (plainClass Unit) () (← pFuel) v) () (.num v)
                { s with warned := false } = (.ok .unit, s') := by
            intro a s' e
            refine (pm_bind_ok e0).trans ?_
            exact (pm_bind_ok ((pm_bind_ok (pm_fuel _)).trans e)).trans rfl
          by_cases h0 : (BTree.node l w r).walk ((BTree.node l w r).insertPath v) = .nil
          · obtain ⟨s', e, Z', _⟩ := pm_insert_new (C := plainClass Unit) (x := ()) Z0 (by simp) h0 (s.next + 1)
              (by simp)
            have hi := insert_above_new (v, ((), s.next)) (.node l w r) h0
            rw [attached_plain] at Z'
            have Z2 := Z'.plug
            rw [show plug (leafAt v () s.next) _ = _ from hi.1] at Z2
            exact ⟨s', hfin _ _ e, Z2⟩
          · obtain ⟨s', e, Z', _⟩ := pm_insert_found (C := plainClass Unit) (x := ()) Z0 (by simp) h0 (s.next + 1)
              (by simp)
            refine ⟨s', hfin _ _ e, ?_⟩
            rw [insert_above_found (v, ((), s.next)) (.node l w r) h0]
            exact Z'
      obtain ⟨s', e, Z'⟩ := key
      rw [pBstExec, snd e]
      exact ⟨_, Z', insert_bare _ _, insert_mem _ _⟩
  | remove v => exact hc.elim
  | contains v => exact same (snd (pm_contains Z0 v))
  | getMin => exact same (snd (pm_getMin Z0))
  | getMax => exact same (snd (pm_getMax Z0))
  | len => exact same rfl
  | isEmpty => exact same rfl
  | clear => exact hc.elim
  | inorder =>
    have hr : pRoot { s with warned := false } = (.ok T.ptr, { s with warned := false }) := by
      rw [pm_root, Z0.root rfl]
    have e := pm_inorder Z0.rep (s.next + 1) (Nat.lt_succ_of_le Z0.length_le)
    exact same (snd ((pm_bind_ok (pm_fuel _)).trans <| (pm_bind_ok hr).trans <| (pm_bind_ok e).trans rfl))
  | invert => exact hc.elim

/-! ## The generator -/

/-- the generator and the walk agree -/
def Along (s : PTree N Unit) (it : TreeIter) (w : Walk N) : Prop :=
  ∃ T : ATree N Unit, ZRep s T [] T.ptr ∧ T.bare = w.tree ∧ Ordered w.tree ∧
    match it with
    | .fresh => w.given = [] ∧ w.lost = [] ∧ w.over = false
    | .susp a rest next => ∃ x R M, At T a x ∧ List.Forall₂ (At T) rest R ∧ List.Forall₂ (At T) next M ∧ Queued w x R M
    | .over => w.over = true

theorem next_tree (w : Walk N) : w.next.2.tree = w.tree := by
  unfold Walk.next
  split_ifs
  · rfl
  · split <;> rfl

theorem along_next {s : PTree N Unit} {it : TreeIter} {w : Walk N} (h : Along s it w) :
    (treeNext s it).1 = w.next.1 ∧ Along s (treeNext s it).2 w.next.2 := by
  obtain ⟨T, Z, h1, h2, h3⟩ := h
  have hn : T.bare.inorder.Nodup := h1 ▸ h2.nodup
  have yield : ∀ {a : Addr} {x : N} {rest next : List Addr} {R M : List N} {w' : Walk N}, At T a x →
      List.Forall₂ (At T) rest R → List.Forall₂ (At T) next M → w.next = (.item x, w') → Queued w' x R M →
      (treeYield s a rest next).1 = w.next.1 ∧ Along s (treeYield s a rest next).2 w.next.2 := by
    intro a x rest next R M w' k1 k2 k3 k4 k5
    obtain ⟨⟨n, e1, rfl⟩, _⟩ := at_node Z.rep hn k1
    have ht := next_tree w
    rw [k4] at ht ⊢
    simp only [treeYield, e1]
    refine ⟨trivial, T, Z, h1.trans ht.symm, ?_, _, R, M, k1, k2, k3, k5⟩
    rw [show w'.tree = w.tree from ht]; exact h2
  have finish : w.next = (.stop, { w with over := true }) →
      (TreeStep.stop : TreeStep N) = w.next.1 ∧ Along s .over w.next.2 := by
    intro e
    rw [e]
    exact ⟨rfl, T, Z, h1, h2, rfl⟩
  cases it with
  | fresh =>
    obtain ⟨g, l, o⟩ := h3
    have hr : s.root = T.ptr := Z.root rfl
    simp only [treeNext, hr]
    cases T with
    | nil =>
      rcases walk_empty h1.symm with e | e
      · exact finish e
      · rw [o] at e; cases e.1
    | node a u b =>
      obtain ⟨w', e, q⟩ := walk_start h1.symm h2.nodup g l o
      exact yield ⟨u, by simp [BTree.inorder], rfl, rfl⟩ .nil .nil e q
  | over =>
    have : w.next = (.stop, w) := by unfold Walk.next; rw [if_pos h3]
    rw [this]
    exact ⟨rfl, T, Z, h1, h2, h3⟩
  | susp a rest next =>
    obtain ⟨x, R, M, k1, k2, k3, q⟩ := h3
    have k4 := (at_node Z.rep hn k1).2
    rw [h1] at k4
    have k5 : List.Forall₂ (At T) (next ++ pChildren s a) (M ++ w.tree.kids x) := List.rel_append k3 k4
    cases k2 with
    | cons kb kr =>
      obtain ⟨w', e, q'⟩ := q.step_same
      exact yield kb kr k5 e q'
    | nil =>
      simp only [treeNext]
      generalize hA : next ++ pChildren s a = A at k5
      generalize hV : M ++ w.tree.kids x = V at k5
      cases k5 with
      | nil => exact finish (q.step_end hV)
      | cons kb kr =>
        obtain ⟨w', e, q'⟩ := q.step_down hV
        exact yield kb kr .nil e q'

theorem along_call {s : PTree N Unit} {it : TreeIter} {w : Walk N} (h : Along s it w) (op : BstOp N)
    (hc : Calm (.call op)) : Along (pBstExec s op).2 it (w.call op) := by
  obtain ⟨T, Z, h1, h2, h3⟩ := h
  obtain ⟨T', Z', e, m⟩ := calm_exec Z op hc
  have hmono : ∀ a x, At T a x → At T' a x := fun _ _ k => k.mono m
  by_cases hi : ∃ v, op = .insert (.num v)
  · obtain ⟨v, rfl⟩ := hi
    refine ⟨T', Z', ?_, ?_, ?_⟩
    · simp only [Walk.call, put_tree h2, ← h1]; exact e
    · simp only [Walk.call, put_tree h2]; exact plant_ordered v h2
    · cases it with
      | fresh => exact ⟨(put_given _ _).trans h3.1, put_fresh v h3.1 h3.2.1, (put_over _ _).trans h3.2.2⟩
      | over => exact (put_over _ _).trans h3
      | susp a rest next =>
        obtain ⟨x, R, M, k1, k2, k3, q⟩ := h3
        exact ⟨x, R, M, hmono _ _ k1, k2.imp hmono, k3.imp hmono, q.put v⟩
  · have e1 : T.bare.after op = T.bare := by
      cases op with
      | insert v => cases v with
        | num v => exact absurd ⟨v, rfl⟩ hi
        | _ => rfl
      | _ => rfl
    have e2 : w.call op = w := by
      cases op with
      | insert v => cases v with
        | num v => exact absurd ⟨v, rfl⟩ hi
        | _ => rfl
      | _ => rfl
    rw [e2]
    refine ⟨T', Z', (e.trans e1).trans h1, h2, ?_⟩
    cases it with
    | fresh => exact h3
    | over => exact h3
    | susp a rest next =>
      obtain ⟨x, R, M, k1, k2, k3, q⟩ := h3
      exact ⟨x, R, M, hmono _ _ k1, k2.imp hmono, k3.imp hmono, q⟩

theorem along_acts (as : List (TreeAct (BstOp N))) {s : PTree N Unit} {it : TreeIter} {w : Walk N} (h : Along s it w)
    (hc : ∀ a ∈ as, Calm a) :
    (treeActs (fun s op => (pBstExec s op).2) as s it).1 = (walkActs as w).1 ∧
      Along (treeActs (fun s op => (pBstExec s op).2) as s it).2.1 (treeActs (fun s op => (pBstExec s op).2) as s it).2.2
        (walkActs as w).2 := by
  induction as generalizing s it w with
  | nil => exact ⟨rfl, h⟩
  | cons a as ih =>
    have hc' : ∀ b ∈ as, Calm b := fun b hb => hc b (by simp [hb])
    cases a with
    | next =>
      obtain ⟨e, h'⟩ := along_next h
      obtain ⟨e2, h2⟩ := ih h' hc'
      exact ⟨by simp only [treeActs, walkActs, e, e2], h2⟩
    | call op => exact ih (along_call h op (hc _ (by simp))) hc'

/-! ## What a walk gives -/

theorem along_start (ops : List (BstOp N)) (hs : SearchTree (Bst.execs ops Bst.empty).2.root) :
    Along (pBstExecs ops PTree.empty).2 .fresh (Walk.start (Bst.execs ops Bst.empty).2.root.bare) := by
  obtain ⟨T, Z, h1, _⟩ := (bst_execs ops (holds_empty (N := N))).2
  refine ⟨T, Z, ?_, ?_, rfl, rfl, rfl⟩
  · rw [Walk.start, ← h1, BTree.forget, bare_mapExt]
  · rw [Ordered, Walk.start, bare_inorder]; exact hs

/-- what holds of a walk: the answers are the values given, in order; the values that have been given are there,
and so is what was there before; when it has come to its end, all others are lost, and only new ones are -/
structure Sane (t0 : BTree N) (w : Walk N) : Prop where
  ord : Ordered w.tree
  nodup : w.given.Nodup
  there : ∀ x ∈ w.given, x ∈ w.tree.byLevel
  lostNew : ∀ x ∈ w.lost, x ∉ t0.inorder
  more : ∀ x ∈ t0.inorder, x ∈ w.tree.byLevel
  ended : w.over = true → ∀ x ∈ t0.inorder, x ∈ w.given

theorem Sane.next {t0 : BTree N} {w : Walk N} (h : Sane t0 w) :
    Sane t0 w.next.2 ∧ w.next.2.given = w.given ++ TreeStep.values [w.next.1] ∧
      (w.next.1 = .stop → w.next.2.over = true) := by
  unfold Walk.next
  split_ifs with ho
  · exact ⟨h, by simp [TreeStep.values], fun _ => ho⟩
  · split
    · rename_i v hv
      have h1 := List.mem_of_find?_eq_some hv
      have h2 := List.find?_some hv
      simp only [decide_eq_true_eq] at h2
      refine ⟨⟨h.ord, ?_, ?_, h.lostNew, h.more, fun hc => absurd hc ho⟩, rfl, fun hc => by cases hc⟩
      · rw [List.nodup_append]
        refine ⟨h.nodup, by simp, fun x hx y hy => ?_⟩
        rw [List.mem_singleton] at hy
        rintro rfl
        exact h2.1 (hy ▸ hx)
      · intro x hx
        rcases List.mem_append.1 hx with hx | hx
        · exact h.there x hx
        · rw [List.mem_singleton] at hx; exact hx ▸ h1
    · rename_i hv
      refine ⟨⟨h.ord, h.nodup, h.there, h.lostNew, h.more, fun _ x hx => ?_⟩, by simp [TreeStep.values], fun _ => rfl⟩
      have := List.find?_eq_none.1 hv x (h.more x hx)
      simp only [decide_eq_true_eq, not_and, not_not] at this
      by_contra hc
      exact h.lostNew x (this hc) hx

theorem Sane.put {t0 : BTree N} {w : Walk N} (h : Sane t0 w) (v : N) : Sane t0 (w.put v) := by
  have keep : ∀ x ∈ w.tree.byLevel, x ∈ (w.tree.plant v).byLevel := by
    intro x hx
    by_cases hv : v ∈ w.tree.inorder
    · rw [plant_there h.ord hv]; exact hx
    · exact mem_byLevel.2 ((plant_perm hv).mem_iff.2 (List.mem_cons_of_mem _ (mem_byLevel.1 hx)))
  unfold Walk.put
  split_ifs with h1 h2
  · exact h
  · refine ⟨plant_ordered v h.ord, h.nodup, fun x hx => keep x (h.there x hx), fun x hx => ?_,
      fun x hx => keep x (h.more x hx), h.ended⟩
    rcases List.mem_cons.1 hx with rfl | hx
    · exact fun hc => h1 (h.more x hc)
    · exact h.lostNew x hx
  · exact ⟨plant_ordered v h.ord, h.nodup, fun x hx => keep x (h.there x hx), h.lostNew,
      fun x hx => keep x (h.more x hx), h.ended⟩

theorem Sane.call {t0 : BTree N} {w : Walk N} (h : Sane t0 w) (op : BstOp N) : Sane t0 (w.call op) := by
  unfold Walk.call
  split
  · exact h.put _
  · exact h

theorem call_over (w : Walk N) (op : BstOp N) : (w.call op).over = w.over ∧ (w.call op).given = w.given := by
  unfold Walk.call
  split
  · exact ⟨put_over _ _, put_given _ _⟩
  · exact ⟨rfl, rfl⟩

theorem acts_over (as : List (TreeAct (BstOp N))) (w : Walk N) (h : w.over = true) : (walkActs as w).2.over = true := by
  induction as generalizing w with
  | nil => exact h
  | cons a as ih =>
    cases a with
    | next => exact ih _ (by unfold Walk.next; rw [if_pos h]; exact h)
    | call op => exact ih _ ((call_over w op).1.trans h)

theorem Sane.acts {t0 : BTree N} (as : List (TreeAct (BstOp N))) {w : Walk N} (h : Sane t0 w) :
    Sane t0 (walkActs as w).2 ∧ (walkActs as w).2.given = w.given ++ TreeStep.values (walkActs as w).1 ∧
      (.stop ∈ (walkActs as w).1 → (walkActs as w).2.over = true) := by
  induction as generalizing w with
  | nil => exact ⟨h, by simp [walkActs, TreeStep.values], by simp [walkActs]⟩
  | cons a as ih =>
    cases a with
    | next =>
      obtain ⟨k1, k2, k3⟩ := h.next
      obtain ⟨j1, j2, j3⟩ := ih k1
      refine ⟨j1, ?_, ?_⟩
      · simp only [walkActs]
        rw [j2, k2]
        cases w.next.1 <;> simp [TreeStep.values]
      · simp only [walkActs]
        intro hm
        rcases List.mem_cons.1 hm with e | hm
        · exact acts_over as _ (k3 e.symm)
        · exact j3 hm
    | call op =>
      obtain ⟨j1, j2, j3⟩ := ih (h.call op)
      refine ⟨j1, ?_, j3⟩
      simp only [walkActs]
      rw [j2, (call_over w op).2]

theorem sane_start {t : BTree (N × Unit)} (hs : SearchTree t) : Sane t.bare (Walk.start t.bare) :=
  ⟨by rw [Ordered, Walk.start, bare_inorder]; exact hs, List.nodup_nil, by simp [Walk.start],
    by simp [Walk.start], fun x hx => mem_byLevel.2 hx, by simp [Walk.start]⟩

theorem acts_quiet (as : List (TreeAct (BstOp N))) (w : Walk N) (e : Err) : .raised e ∉ (walkActs as w).1 := by
  induction as generalizing w with
  | nil => simp [walkActs]
  | cons a as ih =>
    cases a with
    | next =>
      simp only [walkActs, List.mem_cons, not_or]
      refine ⟨?_, ih _⟩
      unfold Walk.next
      split_ifs
      · simp
      · split <;> simp
    | call op => exact ih _

theorem under_max {t : BTree N} {v u : N} (hv : v ∈ t.inorder) (hm : ∀ x ∈ t.inorder, x ≤ v) (hu : v < u)
    (ho : Ordered t) (p : N) : t.under u p = v := by
  induction t generalizing p with
  | nil => simp [BTree.inorder] at hv
  | node l w r ihl ihr =>
    obtain ⟨h1, h2, h3, h4⟩ := ordered_parts.1 ho
    rw [inorder_mid] at hv hm
    have hw : w ≤ v := hm w (by simp)
    rw [BTree.under, if_neg (hw.trans_lt hu).not_gt]
    cases r with
    | nil =>
      rw [BTree.under]
      simp only [BTree.inorder, List.mem_append, List.mem_cons, List.not_mem_nil, or_false] at hv
      rcases hv with hv | hv
      · exact absurd (h3 v hv) hw.not_gt
      · exact hv.symm
    | node rl rw' rr =>
      refine ihr ?_ (fun x hx => hm x (by simp [hx])) h2 w
      have hx : rw' ∈ (BTree.node rl rw' rr).inorder := by simp [BTree.inorder]
      have h5 : w < v := (h4 _ hx).trans_le (hm _ (by simp [hx]))
      rcases List.mem_append.1 hv with hv | hv
      · exact absurd (h3 v hv) hw.not_gt
      · rcases List.mem_cons.1 hv with hv | hv
        · exact absurd hv h5.ne'
        · exact hv

/-- the loop that puts in a larger number each time -/
theorem endless_from (a : Nat → N) (ha : ∀ k, a k < a (k + 1)) (n : Nat) :
    ∀ (k : Nat) (w : Walk N), Ordered w.tree → a k ∈ w.tree.inorder → (∀ x ∈ w.tree.inorder, x ≤ a k) →
      w.tree.kids (a k) = [] → (∃ w', w.next = (.item (a k), w') ∧ Queued w' (a k) [] []) →
      (walkActs ((List.range n).flatMap fun j => [.next, .call (.insert (.num (a (k + j + 1))))]) w).1 =
        (List.range n).map fun j => .item (a (k + j)) := by
  induction n with
  | zero => intros; rfl
  | succ n ih =>
    intro k w h1 h2 h3 h4 ⟨w', e, q⟩
    have ht : w'.tree = w.tree := by have := next_tree w; rwa [e] at this
    rw [List.range_succ_eq_map, List.flatMap_cons, List.map_cons, List.flatMap_map, List.map_map]
    simp only [List.cons_append, List.nil_append, walkActs, e, Nat.add_zero]
    congr 1
    have hnew : a (k + 1) ∉ w'.tree.inorder := fun hc => (h3 _ (ht ▸ hc)).not_gt (ha k)
    have hu : w'.tree.under (a (k + 1)) (a (k + 1)) = a k := by
      rw [ht]; exact under_max h2 h3 (ha k) h1 _
    obtain ⟨K1, K2⟩ := plant_kids (a (k + 1)) hnew (ht ▸ h1.nodup) (by rw [ht]; rintro hc; rw [hc] at h2; cases h2)
    rw [hu, ht, h4] at K2
    rw [hu, ht] at K1
    have hp : (w'.put (a (k + 1))).tree = w.tree.plant (a (k + 1)) := by rw [put_tree (ht ▸ h1), ht]
    have hk : (w'.put (a (k + 1))).tree.kids (a k) = [a (k + 1)] := by
      rw [hp]; rcases K2 with K2 | K2 <;> rw [K2] <;> rfl
    have hperm := plant_perm (ht ▸ hnew)
    have q' := q.put (a (k + 1))
    have := ih (k + 1) (w'.put (a (k + 1))) (hp ▸ plant_ordered _ h1) (by rw [hp, hperm.mem_iff]; simp)
      (by
        intro x hx
        rw [hp, hperm.mem_iff] at hx
        rcases List.mem_cons.1 hx with rfl | hx
        · exact le_rfl
        · exact (h3 x hx).trans (ha k).le)
      (by rw [hp, K1 _ (ha k).ne', kids_absent (ht ▸ hnew)])
      (q'.step_down (rest' := []) (by rw [hk]; rfl))
    simpa only [Walk.call, Function.comp_def, Nat.succ_eq_add_one, Nat.add_assoc, Nat.add_comm 1] using this

theorem endless_acts (a : Nat → N) (ha : ∀ k, a k < a (k + 1)) (n : Nat) :
    (walkActs ((List.range n).flatMap fun k => [.next, .call (.insert (.num (a (k + 1))))])
      (Walk.start (.node .nil (a 0) .nil))).1 = (List.range n).map fun k => .item (a k) := by
  have := endless_from a ha n 0 (Walk.start (.node .nil (a 0) .nil)) (by simp [Ordered, Walk.start, BTree.inorder])
    (by simp [Walk.start, BTree.inorder]) (by simp [Walk.start, BTree.inorder])
    (by simp [Walk.start, BTree.kids, BTree.top])
    (walk_start rfl (by simp [Walk.start, BTree.inorder]) rfl rfl rfl)
  simpa only [Nat.zero_add] using this

end Extra
