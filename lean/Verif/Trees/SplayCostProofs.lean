import Verif.Trees.SplayCost
import Verif.Trees.SplayProofs
import Mathlib.Tactic.Ring

/-!
# Helper lemmas about the cost of a `SplayTree`

The potential of a tree is the sum of the ranks of its nodes; the rank of a node is the logarithm of
the size of its subtree, rounded down.
-/

set_option linter.unusedSectionVars false
set_option linter.unusedSimpArgs false

namespace Extra
variable {N X : Type} [LinearOrder N]

/-- the rank of the root -/
def BTree.rank (t : BTree (N × X)) : Nat := Nat.log 2 t.nodes

/-- the sum of all ranks -/
def BTree.ranks : BTree (N × X) → Nat
  | .nil => 0
  | .node l w r => l.ranks + r.ranks + (BTree.node l w r).rank

theorem nodes_pos (l : BTree (N × X)) (w r) : 0 < (BTree.node l w r).nodes := by
  simp [BTree.nodes]

theorem log_mono {a b : Nat} (h : a ≤ b) : Nat.log 2 a ≤ Nat.log 2 b := Nat.log_mono_right h

/-- two disjoint parts cannot both have the rank of the whole -/
theorem log_pair {a b c : Nat} (ha : 0 < a) (hb : 0 < b) (h : a + b ≤ c) :
    Nat.log 2 a < Nat.log 2 c ∨ Nat.log 2 b < Nat.log 2 c := by
  by_contra hn
  rw [not_or, not_lt, not_lt] at hn
  have h1 := Nat.pow_log_le_self 2 ha.ne'
  have h2 := Nat.pow_log_le_self 2 hb.ne'
  have h3 : 2 ^ Nat.log 2 c ≤ 2 ^ Nat.log 2 a := Nat.pow_le_pow_right (by omega) hn.1
  have h4 : 2 ^ Nat.log 2 c ≤ 2 ^ Nat.log 2 b := Nat.pow_le_pow_right (by omega) hn.2
  have h5 := Nat.lt_pow_succ_log_self (b := 2) (by omega) c
  rw [pow_succ] at h5
  omega

theorem plug_nodes (fs : List (Above N X)) : ∀ {s t : BTree (N × X)}, s.nodes = t.nodes →
    (plug s fs).nodes = (plug t fs).nodes ∧ (plug s fs).ranks + t.ranks = (plug t fs).ranks + s.ranks := by
  induction fs with
  | nil => intro s t h; exact ⟨h, by simp [plug]; omega⟩
  | cons f fs ih =>
    intro s t h
    cases hf : f.left
    · obtain ⟨e1, e2⟩ := ih (s := .node f.other f.w s) (t := .node f.other f.w t) (by simp [BTree.nodes, h])
      simp only [plug, hf, Bool.false_eq_true, if_false]
      refine ⟨e1, ?_⟩
      simp only [BTree.ranks, BTree.rank, BTree.nodes, h] at e2 ⊢; omega
    · obtain ⟨e1, e2⟩ := ih (s := .node s f.w f.other) (t := .node t f.w f.other) (by simp [BTree.nodes, h])
      simp only [plug, hf, if_true]
      refine ⟨e1, ?_⟩
      simp only [BTree.ranks, BTree.rank, BTree.nodes, h] at e2 ⊢; omega

/-- the cost of splaying: the length of the way, against the loss of potential -/
theorem splaying_cost (x : N × X) : ∀ (fs : List (Above N X)) (a b : BTree (N × X)) {s : BTree (N × X)},
    splaying a x b fs = .ok s →
    s.nodes = (plug (.node a x b) fs).nodes ∧
    fs.length + 2 * s.ranks + 6 * (BTree.node a x b).rank ≤
      2 * (plug (.node a x b) fs).ranks + 6 * s.rank + 1
  | [], a, b, s, h => by
    cases h; exact ⟨rfl, by simp [plug]⟩
  | [f], a, b, s, h => by
    simp only [splaying] at h
    split_ifs at h with h1 h2
    · cases h
      simp only [plug, h2, if_true]
      refine ⟨by simp [BTree.nodes]; omega, ?_⟩
      have e1 := log_mono (a := a.nodes + b.nodes + 1) (b := a.nodes + (b.nodes + f.other.nodes + 1) + 1) (by omega)
      have e2 := log_mono (a := b.nodes + f.other.nodes + 1) (b := a.nodes + (b.nodes + f.other.nodes + 1) + 1) (by omega)
      have e3 : a.nodes + b.nodes + 1 + f.other.nodes + 1 = a.nodes + (b.nodes + f.other.nodes + 1) + 1 := by omega
      simp only [BTree.ranks, BTree.rank, BTree.nodes, List.length_singleton, e3]
      omega
    · cases h
      simp only [plug, h2, if_false]
      refine ⟨by simp [BTree.nodes]; omega, ?_⟩
      have e1 := log_mono (a := a.nodes + b.nodes + 1) (b := f.other.nodes + (a.nodes + b.nodes + 1) + 1) (by omega)
      have e2 := log_mono (a := f.other.nodes + a.nodes + 1) (b := f.other.nodes + (a.nodes + b.nodes + 1) + 1) (by omega)
      have e3 : f.other.nodes + a.nodes + 1 + b.nodes + 1 = f.other.nodes + (a.nodes + b.nodes + 1) + 1 := by omega
      simp only [BTree.ranks, BTree.rank, BTree.nodes, List.length_singleton, e3, Bool.false_eq_true, if_false]
      omega
  | f :: g :: fs, a, b, s, h => by
    simp only [splaying] at h
    -- what remains after the two steps, by induction
    suffices H : ∃ a' b', splaying a' x b' fs = .ok s ∧
        (BTree.node a' x b').nodes = (plug (.node a x b) [f, g]).nodes ∧
        1 + (BTree.node a' x b').ranks + 3 * (BTree.node a x b).rank ≤
          (plug (.node a x b) [f, g]).ranks + 3 * (BTree.node a' x b').rank by
      obtain ⟨a', b', e, hn, hr⟩ := H
      obtain ⟨i1, i2⟩ := splaying_cost x fs a' b' e
      obtain ⟨p1, p2⟩ := plug_nodes fs hn
      have hp : plug (.node a x b) (f :: g :: fs) = plug (plug (.node a x b) [f, g]) fs := rfl
      rw [hp]
      refine ⟨i1.trans p1, ?_⟩
      simp only [List.length_cons]
      omega
    split_ifs at h with h1
    simp only [plug]
    cases hg : g.left <;> cases hf : f.left <;> simp only [hg, hf] at h <;>
      refine ⟨_, _, h, ?_, ?_⟩ <;> simp only [if_true, if_false, Bool.false_eq_true]
    · simp only [BTree.nodes]; omega
    · have e := log_pair (a := a.nodes + b.nodes + 1) (b := g.other.nodes + f.other.nodes + 1)
        (c := g.other.nodes + (f.other.nodes + (a.nodes + b.nodes + 1) + 1) + 1) (by omega) (by omega) (by omega)
      have e1 := log_mono (a := a.nodes + b.nodes + 1) (b := f.other.nodes + (a.nodes + b.nodes + 1) + 1) (by omega)
      have e2 := log_mono (a := f.other.nodes + (a.nodes + b.nodes + 1) + 1)
        (b := g.other.nodes + (f.other.nodes + (a.nodes + b.nodes + 1) + 1) + 1) (by omega)
      have e3 := log_mono (a := g.other.nodes + f.other.nodes + 1 + a.nodes + 1)
        (b := g.other.nodes + (f.other.nodes + (a.nodes + b.nodes + 1) + 1) + 1) (by omega)
      have e4 : g.other.nodes + f.other.nodes + 1 + a.nodes + 1 + b.nodes + 1 =
        g.other.nodes + (f.other.nodes + (a.nodes + b.nodes + 1) + 1) + 1 := by omega
      have e5 := log_mono (a := g.other.nodes + f.other.nodes + 1)
        (b := g.other.nodes + (f.other.nodes + (a.nodes + b.nodes + 1) + 1) + 1) (by omega)
      simp only [BTree.ranks, BTree.rank, BTree.nodes, e4]
      omega
    · simp only [BTree.nodes]; omega
    · have e := log_pair (a := g.other.nodes + a.nodes + 1) (b := b.nodes + f.other.nodes + 1)
        (c := g.other.nodes + (a.nodes + b.nodes + 1 + f.other.nodes + 1) + 1) (by omega) (by omega) (by omega)
      have e1 := log_mono (a := a.nodes + b.nodes + 1) (b := a.nodes + b.nodes + 1 + f.other.nodes + 1) (by omega)
      have e2 := log_mono (a := a.nodes + b.nodes + 1 + f.other.nodes + 1)
        (b := g.other.nodes + (a.nodes + b.nodes + 1 + f.other.nodes + 1) + 1) (by omega)
      have e3 := log_mono (a := g.other.nodes + a.nodes + 1)
        (b := g.other.nodes + (a.nodes + b.nodes + 1 + f.other.nodes + 1) + 1) (by omega)
      have e4 : g.other.nodes + a.nodes + 1 + (b.nodes + f.other.nodes + 1) + 1 =
        g.other.nodes + (a.nodes + b.nodes + 1 + f.other.nodes + 1) + 1 := by omega
      have e5 := log_mono (a := b.nodes + f.other.nodes + 1)
        (b := g.other.nodes + (a.nodes + b.nodes + 1 + f.other.nodes + 1) + 1) (by omega)
      simp only [BTree.ranks, BTree.rank, BTree.nodes, e4]
      omega
    · simp only [BTree.nodes]; omega
    · have e := log_pair (a := f.other.nodes + a.nodes + 1) (b := b.nodes + g.other.nodes + 1)
        (c := f.other.nodes + (a.nodes + b.nodes + 1) + 1 + g.other.nodes + 1) (by omega) (by omega) (by omega)
      have e1 := log_mono (a := a.nodes + b.nodes + 1) (b := f.other.nodes + (a.nodes + b.nodes + 1) + 1) (by omega)
      have e2 := log_mono (a := f.other.nodes + (a.nodes + b.nodes + 1) + 1)
        (b := f.other.nodes + (a.nodes + b.nodes + 1) + 1 + g.other.nodes + 1) (by omega)
      have e3 := log_mono (a := f.other.nodes + a.nodes + 1)
        (b := f.other.nodes + (a.nodes + b.nodes + 1) + 1 + g.other.nodes + 1) (by omega)
      have e4 : f.other.nodes + a.nodes + 1 + (b.nodes + g.other.nodes + 1) + 1 =
        f.other.nodes + (a.nodes + b.nodes + 1) + 1 + g.other.nodes + 1 := by omega
      have e5 := log_mono (a := b.nodes + g.other.nodes + 1)
        (b := f.other.nodes + (a.nodes + b.nodes + 1) + 1 + g.other.nodes + 1) (by omega)
      simp only [BTree.ranks, BTree.rank, BTree.nodes, e4]
      omega
    · simp only [BTree.nodes]; omega
    · have e := log_pair (a := a.nodes + b.nodes + 1) (b := f.other.nodes + g.other.nodes + 1)
        (c := a.nodes + b.nodes + 1 + f.other.nodes + 1 + g.other.nodes + 1) (by omega) (by omega) (by omega)
      have e1 := log_mono (a := a.nodes + b.nodes + 1) (b := a.nodes + b.nodes + 1 + f.other.nodes + 1) (by omega)
      have e2 := log_mono (a := a.nodes + b.nodes + 1 + f.other.nodes + 1)
        (b := a.nodes + b.nodes + 1 + f.other.nodes + 1 + g.other.nodes + 1) (by omega)
      have e3 := log_mono (a := b.nodes + (f.other.nodes + g.other.nodes + 1) + 1)
        (b := a.nodes + b.nodes + 1 + f.other.nodes + 1 + g.other.nodes + 1) (by omega)
      have e4 : a.nodes + (b.nodes + (f.other.nodes + g.other.nodes + 1) + 1) + 1 =
        a.nodes + b.nodes + 1 + f.other.nodes + 1 + g.other.nodes + 1 := by omega
      have e5 := log_mono (a := f.other.nodes + g.other.nodes + 1)
        (b := a.nodes + b.nodes + 1 + f.other.nodes + 1 + g.other.nodes + 1) (by omega)
      simp only [BTree.ranks, BTree.rank, BTree.nodes, e4]
      omega

theorem descend_plug (p : List Bool) : ∀ (t : BTree (N × X)) (fs : List (Above N X)) {a x b gs},
    t.descend p fs = (.node a x b, gs) →
    gs.length = p.length + fs.length ∧ plug (.node a x b) gs = plug t fs := by
  induction p with
  | nil => intro t fs a x b gs h; cases t <;> cases h; exact ⟨by simp, rfl⟩
  | cons c p ih =>
    intro t fs a x b gs h
    cases t with
    | nil => simp [BTree.descend] at h
    | node l w r =>
      cases c
      · obtain ⟨h1, h2⟩ := ih l _ h
        exact ⟨by simp [h1]; omega, by rw [h2]; simp [plug]⟩
      · obtain ⟨h1, h2⟩ := ih r _ h
        exact ⟨by simp [h1]; omega, by rw [h2]; simp [plug]⟩

theorem splay_cost {t s : BTree (N × X)} {p : List Bool} (h : t.splay p = .ok s) :
    s.nodes = t.nodes ∧ p.length + 2 * s.ranks ≤ 2 * t.ranks + 6 * Nat.log 2 t.nodes + 1 := by
  unfold BTree.splay at h
  split at h
  · cases h
  · next a x b fs e =>
    obtain ⟨h1, h2⟩ := descend_plug p t [] e
    obtain ⟨h3, h4⟩ := splaying_cost x fs a b h
    rw [h2] at h3 h4
    simp only [plug] at h3 h4
    refine ⟨h3, ?_⟩
    simp only [List.length_nil, Nat.add_zero] at h1
    have : s.rank = Nat.log 2 t.nodes := by rw [BTree.rank, h3]
    omega

theorem insertNode_nodes (v : N × X) (t : BTree (N × X)) :
    (t.insertNode v).1.nodes = t.nodes + (if (t.insertNode v).2 then 1 else 0) := by
  induction t with
  | nil => rfl
  | node l w r ihl ihr =>
    rw [insertNode_node]
    split_ifs <;> simp_all [BTree.nodes] <;> omega

/-- inserting a leaf raises the potential by a logarithm -/
theorem insertNode_ranks (v : N × X) (t : BTree (N × X)) :
    (t.insertNode v).1.ranks ≤ t.ranks + Nat.log 2 (t.insertNode v).1.nodes := by
  induction t with
  | nil => simp [BTree.insertNode, BTree.ranks, BTree.rank, BTree.nodes]
  | node l w r ihl ihr =>
    rw [insertNode_node]
    split_ifs with h1 h2
    · simp
    · have hle : (l.insertNode v).1.nodes ≤ l.nodes + r.nodes + 1 := by
        rw [insertNode_nodes]; split <;> omega
      have := log_mono hle
      simp only [BTree.ranks, BTree.rank, BTree.nodes] at ihl this ⊢
      omega
    · have hle : (r.insertNode v).1.nodes ≤ l.nodes + r.nodes + 1 := by
        rw [insertNode_nodes]; split <;> omega
      have := log_mono hle
      simp only [BTree.ranks, BTree.rank, BTree.nodes] at ihr this ⊢
      omega

/-- a tree with smaller parts has a smaller potential -/
theorem ranks_node_le {l l' r r' : BTree (N × X)} {w w' : N × X} (h1 : l.nodes ≤ l'.nodes)
    (h2 : r.nodes ≤ r'.nodes) (h3 : l.ranks ≤ l'.ranks) (h4 : r.ranks ≤ r'.ranks) :
    (BTree.node l w r).nodes ≤ (BTree.node l' w' r').nodes ∧
      (BTree.node l w r).ranks ≤ (BTree.node l' w' r').ranks := by
  have := log_mono (a := l.nodes + r.nodes + 1) (b := l'.nodes + r'.nodes + 1) (by omega)
  simp only [BTree.ranks, BTree.rank, BTree.nodes]
  omega

theorem sink_le (t : BTree (N × X)) : t.sink.nodes ≤ t.nodes ∧ t.sink.ranks ≤ t.ranks := by
  induction t with
  | nil => simp [BTree.sink]
  | node l w r ihl ihr =>
    cases l with
    | node ll lv lr => exact ranks_node_le ihl.1 le_rfl ihl.2 le_rfl
    | nil =>
      cases r with
      | nil => simp [BTree.sink, BTree.nodes, BTree.ranks]
      | node rl rv rr => exact ranks_node_le le_rfl ihr.1 le_rfl ihr.2

theorem takeMin_le (t : BTree (N × X)) {m t'} (e : t.takeMin = some (m, t')) :
    t'.nodes ≤ t.nodes ∧ t'.ranks ≤ t.ranks := by
  induction t generalizing m t' with
  | nil => cases e
  | node l w r ihl ihr =>
    cases l with
    | nil => cases e; exact sink_le _
    | node ll lv lr =>
      simp only [BTree.takeMin] at e
      split at e
      · cases e
      · next m1 l1 e1 => cases e; exact ranks_node_le (ihl e1).1 le_rfl (ihl e1).2 le_rfl

theorem takeMax_le (t : BTree (N × X)) {m t'} (e : t.takeMax = some (m, t')) :
    t'.nodes ≤ t.nodes ∧ t'.ranks ≤ t.ranks := by
  induction t generalizing m t' with
  | nil => cases e
  | node l w r ihl ihr =>
    cases r with
    | nil => simp only [BTree.takeMax] at e; cases e; exact sink_le _
    | node rl rv rr =>
      simp only [BTree.takeMax] at e
      split at e
      · cases e
      · next m1 l1 e1 => cases e; exact ranks_node_le le_rfl (ihr e1).1 le_rfl (ihr e1).2

theorem removeRoot_le (t : BTree (N × X)) : t.removeRoot.nodes ≤ t.nodes ∧ t.removeRoot.ranks ≤ t.ranks := by
  cases t with
  | nil => simp [BTree.removeRoot]
  | node l w r =>
    cases r with
    | node rl rv rr =>
      simp only [BTree.removeRoot]
      split
      · simp [BTree.nodes, BTree.ranks]
      · next m r' e => exact ranks_node_le le_rfl (takeMin_le _ e).1 le_rfl (takeMin_le _ e).2
    | nil =>
      cases l with
      | nil => simp [BTree.removeRoot, BTree.nodes, BTree.ranks]
      | node ll lv lr =>
        simp only [BTree.removeRoot]
        split
        · simp [BTree.nodes, BTree.ranks]
        · next m l' e => exact ranks_node_le (takeMax_le _ e).1 le_rfl (takeMax_le _ e).2 le_rfl

theorem replace_le (p : List Bool) : ∀ (t s : BTree (N × X)), s.nodes ≤ (t.walk p).nodes →
    s.ranks ≤ (t.walk p).ranks → (t.replace p s).nodes ≤ t.nodes ∧ (t.replace p s).ranks ≤ t.ranks := by
  induction p with
  | nil => intro t s h1 h2; cases t <;> exact ⟨h1, h2⟩
  | cons c p ih =>
    intro t s h1 h2
    cases t with
    | nil => cases c <;> exact ⟨le_rfl, le_rfl⟩
    | node l w r =>
      cases c
      · have := ih l s h1 h2; exact ranks_node_le this.1 le_rfl this.2 le_rfl
      · have := ih r s h1 h2; exact ranks_node_le le_rfl this.1 le_rfl this.2

theorem remove_le (v : N) (t : BTree (N × X)) :
    (t.remove v).1.nodes ≤ t.nodes ∧ (t.remove v).1.ranks ≤ t.ranks := by
  unfold BTree.remove
  split_ifs
  · exact replace_le _ _ _ (removeRoot_le _).1 (removeRoot_le _).2
  · exact ⟨le_rfl, le_rfl⟩

/-- one call that splays: its way down is paid by the potential and a logarithm -/
theorem call_cost {t t' : Bst N Unit} {op : SplayOp N} {r : BstRes N} (hop : op.splays = true)
    (h : splayExec t op = .ok (r, t')) (K : Nat) (hK : t.root.nodes + inserts [op] ≤ K) :
    t'.root.nodes ≤ t.root.nodes + inserts [op] ∧
    op.visits t.root + 2 * t'.root.ranks ≤ 2 * t.root.ranks + 8 * Nat.log 2 K + 3 := by
  have same : ∀ c : Nat, c = 0 → t'.root = t.root →
      t'.root.nodes ≤ t.root.nodes + inserts [op] ∧
      c + 2 * t'.root.ranks ≤ 2 * t.root.ranks + 8 * Nat.log 2 K + 3 := by
    intro c hc e; rw [e]; omega
  cases op with
  | getMin => cases hop
  | getMax => cases hop
  | inorder => cases hop
  | len => cases h; exact same _ rfl rfl
  | clear => cases h; simp [SplayOp.visits, Bst.empty, BTree.nodes, BTree.ranks]
  | insert a =>
    cases a with
    | num v =>
      obtain ⟨root, n⟩ := t
      simp only [splayExec, splayInsert, validNum] at h
      cases root with
      | nil =>
        cases h
        simp [SplayOp.visits, BTree.nodes, BTree.ranks, BTree.rank, inserts]
      | node l w r =>
        simp only [bind, Except.bind] at h
        split at h
        · cases h
        · next s e =>
          cases h
          obtain ⟨h1, h2⟩ := splay_cost e
          have h3 := insertNode_nodes (v, ()) (.node l w r)
          have h4 := insertNode_ranks (v, ()) (.node l w r)
          have h5 : ((BTree.node l w r).insertNode (v, ())).1.nodes ≤ (BTree.node l w r).nodes + 1 := by
            rw [h3]; split <;> omega
          have h6 := log_mono (h5.trans hK)
          simp only [SplayOp.visits, reduceCtorEq, if_false, inserts] at hK ⊢
          omega
    | _ => simp only [splayExec, splayInsert, validNum] at h; cases h; exact same _ rfl rfl
  | contains a =>
    cases a with
    | num v =>
      obtain ⟨root, n⟩ := t
      simp only [splayExec, splayContains, validNum] at h
      cases root with
      | nil => cases h; exact same _ (by simp [SplayOp.visits]) rfl
      | node l w r =>
        simp only [bind, Except.bind] at h
        split at h
        · cases h
        · next s e =>
          cases h
          obtain ⟨h1, h2⟩ := splay_cost e
          simp only [inserts, Nat.add_zero] at hK ⊢
          have h6 := log_mono hK
          simp only [SplayOp.visits, reduceCtorEq, if_false] at hK ⊢
          omega
    | _ => simp only [splayExec, splayContains, validNum] at h; cases h; exact same _ rfl rfl
  | remove a =>
    cases a with
    | num v =>
      obtain ⟨root, n⟩ := t
      have big : ∀ l w r, root = .node l w r → ∀ {s : BTree (N × Unit)},
          (root.remove v).1.splay (root.lastAccessed v) = .ok s →
          s.nodes ≤ root.nodes + inserts [SplayOp.remove (.num v)] ∧
          (SplayOp.remove (.num v)).visits root + 2 * s.ranks ≤ 2 * root.ranks + 8 * Nat.log 2 K + 3 := by
        intro l w r hr s e
        obtain ⟨h1, h2⟩ := splay_cost e
        obtain ⟨h3, h4⟩ := remove_le v root
        simp only [inserts, Nat.add_zero] at hK ⊢
        have h6 := log_mono (h3.trans hK)
        refine ⟨by omega, ?_⟩
        have hne : root ≠ .nil := by rw [hr]; simp
        simp only [SplayOp.visits, if_neg hne]
        unfold BTree.lastAccessed at h2
        split_ifs at h2 ⊢
        · rw [List.length_dropLast] at h2; omega
        · omega
      simp only [splayExec] at h
      rcases root with _ | ⟨_ | ⟨ll, lv, lr⟩, w, _ | ⟨rl, rv, rr⟩⟩
      · cases h; exact same _ (by simp [SplayOp.visits]) rfl
      · simp only [splayRemove] at h
        split_ifs at h with hv
        · cases h
          simp [SplayOp.visits, BTree.nodes, BTree.ranks, hv, BTree.search, BTree.walk,
            BTree.replacementPath, BTree.dataAt]
        · cases h
          refine ⟨by omega, ?_⟩
          have hs : (BTree.node BTree.nil w BTree.nil).search v = [] := by
            rw [search_node]; split_ifs <;> first | rfl | exact absurd rfl ‹_›
          simp only [SplayOp.visits, hs, BTree.walk, BTree.replacementPath, List.append_nil, List.length_nil]
          split_ifs <;> omega
      all_goals
        simp only [splayRemove, bind, Except.bind] at h
        split at h
        · cases h
        · next s e =>
          cases h
          exact big _ _ _ rfl e
    | _ => simp only [splayExec, splayRemove] at h; cases h; exact same _ rfl rfl

theorem inserts_cons (op : SplayOp N) (ops : List (SplayOp N)) :
    inserts (op :: ops) = inserts [op] + inserts ops := by
  cases op <;> simp [inserts]; omega

theorem splayExecs_cons {op : SplayOp N} {ops : List (SplayOp N)} {t t'' : Bst N Unit} {rs : List (BstRes N)}
    (h : splayExecs (op :: ops) t = .ok (rs, t'')) : ∃ r t' rs', splayExec t op = .ok (r, t') ∧
      splayExecs ops t' = .ok (rs', t'') ∧ rs = r :: rs' := by
  simp only [splayExecs, bind, Except.bind] at h
  split at h
  · cases h
  · next p e =>
    split at h
    · cases h
    · next q e2 => cases h; exact ⟨p.1, p.2, q.1, e, e2, rfl⟩

theorem run_cost (ops : List (SplayOp N)) : ∀ {t t' : Bst N Unit} {rs : List (BstRes N)}
    (_ : ∀ o ∈ ops, o.splays = true) (_ : splayExecs ops t = .ok (rs, t')) (K : Nat)
    (_ : t.root.nodes + inserts ops ≤ K),
    costs (fun t op => op.visits t) ops t + 2 * t'.root.ranks ≤
      2 * t.root.ranks + ops.length * (8 * Nat.log 2 K + 3) := by
  induction ops with
  | nil => intro t t' rs _ h K _; cases h; simp [costs]
  | cons op ops ih =>
    intro t t' rs ho h K hK
    obtain ⟨r, t1, rs', e1, e2, rfl⟩ := splayExecs_cons h
    rw [inserts_cons] at hK
    obtain ⟨c1, c2⟩ := call_cost (ho op (by simp)) e1 K (by omega)
    have c3 := ih (fun o h => ho o (by simp [h])) e2 K (by omega)
    simp only [costs, e1]
    rw [List.length_cons, Nat.add_mul, Nat.one_mul]
    omega

/-- the potential of a tree -/
theorem ranks_le (t : BTree (N × X)) : t.ranks ≤ t.nodes * Nat.log 2 t.nodes := by
  suffices H : ∀ K, t.nodes ≤ K → t.ranks ≤ t.nodes * Nat.log 2 K from H _ le_rfl
  induction t with
  | nil => simp [BTree.ranks]
  | node l w r ihl ihr =>
    intro K hK
    have h1 := ihl K (by simp only [BTree.nodes] at hK; omega)
    have h2 := ihr K (by simp only [BTree.nodes] at hK; omega)
    have h3 := log_mono hK
    simp only [BTree.ranks, BTree.rank, BTree.nodes] at h3 ⊢
    rw [Nat.add_mul, Nat.add_mul, Nat.one_mul]
    omega

end Extra
