import Verif.Trees.PtrSpec
import Verif.Trees.BstProofs

/-!
# Lemmas about the relatives of a node

For C91.
-/

set_option linter.unusedSectionVars false

namespace Extra
variable {N X : Type} [LinearOrder N]

/-- a child is on the left exactly when its number is smaller than its parent's -/
def SidesTrue (s : PTree N X) : Prop :=
  ∀ q d a b n m, s.reach q = some a → s.reach (q ++ [d]) = some b → s.node a = some n →
    s.node b = some m → (m.data < n.data ↔ d = false)

theorem follow_append (nd : Addr → Option (PNode N X)) (p : Option Addr) (q r : List Bool) :
    follow nd p (q ++ r) = follow nd (follow nd p q) r := by
  induction q generalizing p with
  | nil => rfl
  | cons d q ih =>
    cases p with
    | none => cases r <;> simp [follow]
    | some a =>
      cases h : nd a with
      | none => cases r <;> simp [follow, h]
      | some n => simp only [List.cons_append, follow, h]; exact ih _

theorem reach_step {s : PTree N X} {q : List Bool} {a : Addr} {n : PNode N X} (h : s.reach q = some a)
    (hn : s.node a = some n) (d : Bool) : s.reach (q ++ [d]) = if d then n.right else n.left := by
  rw [PTree.reach] at h
  rw [PTree.reach, follow_append, h]
  simp [follow, hn]

/-- the node above one that is reached -/
theorem reach_above {s : PTree N X} {q : List Bool} {d : Bool} {a : Addr} (hl : WellLinked s)
    (h : s.reach (q ++ [d]) = some a) : ∃ b m n, s.reach q = some b ∧ s.node b = some m ∧
      s.node a = some n ∧ n.parent = some b := by
  obtain ⟨n, hn, hp⟩ := (hl _ _ h).1
  have hb : ∃ b, s.reach q = some b := by
    cases e : s.reach q with
    | some b => exact ⟨b, rfl⟩
    | none =>
      rw [PTree.reach] at e
      rw [PTree.reach, follow_append, e] at h
      simp [follow] at h
  obtain ⟨b, hb⟩ := hb
  obtain ⟨m, hm, _⟩ := (hl _ _ hb).1
  refine ⟨b, m, n, hb, hm, hn, ?_⟩
  rw [hp, if_neg (by simp), List.dropLast_concat, hb]

theorem shows_walk {nd : Addr → Option (PNode N X)} {p : Option Addr} {t : BTree (N × X)}
    (h : Shows nd p t) (q : List Bool) {a : Addr} (ha : follow nd p q = some a) :
    ∃ l w r, t.walk q = .node l w r ∧ Shows nd (some a) (.node l w r) := by
  induction q generalizing p t with
  | nil =>
    simp only [follow] at ha
    subst ha
    cases t with
    | nil => simp [Shows] at h
    | node l w r => exact ⟨l, w, r, rfl, h⟩
  | cons d q ih =>
    cases p with
    | none => simp [follow] at ha
    | some b =>
      cases t with
      | nil => simp [Shows] at h
      | node l w r =>
        obtain ⟨n, hn, h1, h2, h3, h4⟩ := h
        simp only [follow, hn] at ha
        cases d with
        | false => exact ih h3 ha
        | true => exact ih h4 ha

theorem searchTree_walk {t : BTree (N × X)} (h : SearchTree t) (q : List Bool) :
    SearchTree (t.walk q) := by
  induction q generalizing t with
  | nil => cases t <;> exact h
  | cons d q ih =>
    cases t with
    | nil => cases d <;> exact h
    | node l w r =>
      rw [SearchTree, BTree.inorder, List.append_assoc, List.map_append, List.pairwise_append, List.singleton_append,
    List.map_cons] at h
      cases d with
      | false => exact ih h.1
      | true => exact ih (List.pairwise_cons.1 h.2.1).2

theorem sidesTrue_of {s : PTree N X} {t : BTree (N × X)} (h : Shows s.node s.root t)
    (hs : SearchTree t) : SidesTrue s := by
  intro q d a b n m ha hb hn hm
  obtain ⟨l, w, r, hw, k⟩ := shows_walk h q ha
  have hst := searchTree_walk hs q
  rw [hw] at hst
  obtain ⟨n', hn', h1, h2, h3, h4⟩ := k
  rw [hn] at hn'
  cases hn'
  rw [reach_step ha hn] at hb
  rw [SearchTree, BTree.inorder, List.append_assoc, List.map_append, List.pairwise_append, List.singleton_append,
    List.map_cons] at hst
  cases d with
  | false =>
    simp only [Bool.false_eq_true, if_false] at hb
    rw [hb] at h3
    cases l with
    | nil => simp [Shows] at h3
    | node l' w' r' =>
      obtain ⟨m', hm', e1, _⟩ := h3
      rw [hm] at hm'
      cases hm'
      have := hst.2.2 w'.1 (by simp [BTree.inorder]) w.1 (by simp)
      simp [e1, h1, this]
  | true =>
    simp only [if_true] at hb
    rw [hb] at h4
    cases r with
    | nil => simp [Shows] at h4
    | node l' w' r' =>
      obtain ⟨m', hm', e1, _⟩ := h4
      rw [hm] at hm'
      cases hm'
      have := (List.pairwise_cons.1 hst.2.1).1 w'.1 (by simp [BTree.inorder])
      simp [e1, h1, this.le]

end Extra
