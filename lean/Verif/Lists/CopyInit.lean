import Verif.Lists.Reach

/-!
# What `K(other)` makes of a list: helper lemmas for C08
-/

set_option linter.unusedSectionVars false

namespace Extra
variable {V X : Type} [PyData V] [Inhabited X]
variable {k : Kind} {w : World V X} {s : AState V} {nsf : Nat → List Addr}

/-- the new object has the same nodes, and nothing else changes -/
theorem initAlias_run (k : Kind) (h : Heap V X) (o : Addr) (ho : o < h.nLists) :
    ∃ h', initAlias k o h = (.ok h.nLists, h') ∧ h'.node = h.node ∧ h'.nNodes = h.nNodes ∧
      h'.nLists = h.nLists + 1 ∧ (h'.lobj h.nLists).head = (h.lobj o).head ∧
      (h'.lobj h.nLists).length = (h.lobj o).length ∧
      (k = .dll → (h'.lobj h.nLists).tail = (h.lobj o).tail) ∧ ∀ a, a < h.nLists → h'.lobj a = h.lobj a := by
  have hne : o ≠ h.nLists := Nat.ne_of_lt ho
  cases k with
  | ll | cll =>
    refine ⟨⟨h.node, upd h.lobj h.nLists ⟨(h.lobj o).head, none, (h.lobj o).length⟩, h.nNodes,
      h.nLists + 1⟩, ?_, rfl, rfl, rfl, by simp, by simp, (by intro e; cases e),
      fun a ha => upd_ne _ _ (Nat.ne_of_lt ha)⟩
    simp [initAlias, newList, run_bind, upd_ne _ _ hne, Heap.setList, upd_upd]
  | dll =>
    refine ⟨⟨h.node, upd h.lobj h.nLists ⟨(h.lobj o).head, (h.lobj o).tail, (h.lobj o).length⟩, h.nNodes,
      h.nLists + 1⟩, ?_, rfl, rfl, rfl, by simp, by simp, by simp,
      fun a ha => upd_ne _ _ (Nat.ne_of_lt ha)⟩
    simp [initAlias, newList, run_bind, upd_ne _ _ hne, Heap.setList, upd_upd]

theorem Rep.same {h h' : Heap V X} {l l' : Addr} {ns : List Addr} {xs : List V} (r : Rep k h l ns xs)
    (hN : h'.node = h.node) (n1 : h'.nNodes = h.nNodes) (hl : l' < h'.nLists)
    (e1 : (h'.lobj l').head = (h.lobj l).head) (e2 : (h'.lobj l').length = (h.lobj l).length)
    (e3 : k = .dll → (h'.lobj l').tail = (h.lobj l).tail) : Rep k h' l' ns xs :=
  ⟨by rw [e2]; exact r.len, by rw [hN]; exact r.data, r.normed, r.nodup, by rw [n1]; exact r.bound, hl,
    fun hne => by rw [e1]; exact r.head hne, fun a ha => by rw [n1]; rw [e1] at ha; exact r.hbound a ha,
    r.links.congr (fun a _ => by rw [hN]), fun e => (r.plinks e).congr (fun a _ => by rw [hN]),
    fun e hne => by rw [e3 e]; exact r.tail e hne⟩

theorem at?_moved {i j : Nat} {xs : List V} (hi : s.at? i = some xs) {ys : List V} :
    AState.at? (s.set i none ++ [some xs]) j = some ys ↔ (j = s.length ∧ ys = xs) ∨ (j ≠ i ∧ j < s.length ∧ s.at? j = some ys) := by
  have hlt := at?_lt hi
  unfold AState.at?
  rw [List.getElem?_append]
  simp only [List.length_set]
  split
  · rename_i h
    rw [List.getElem?_set]
    by_cases e : i = j
    · subst e; simp [h]; omega
    · simp only [if_neg e]
      constructor
      · intro h1; exact .inr ⟨fun h => e h.symm, h, h1⟩
      · rintro (⟨h1, _⟩ | ⟨_, _, h1⟩)
        · omega
        · exact h1
  · rename_i h
    by_cases e : j = s.length
    · subst e; simp [eq_comm]
    · rw [List.getElem?_eq_none (by simp; omega)]
      simp [e]
      intro _ h1; omega

/-- the new list in place of the old one -/
theorem Inv.moved (I : Inv k w s nsf) {i : Nat} {xs : List V} {l : Addr} (hi : s.at? i = some xs)
    (hl : w.env[i]? = some l) :
    ∃ h' a nsf', initAlias k l w.heap = (.ok a, h') ∧
      Inv k ⟨h', w.env ++ [a]⟩ (s.set i none ++ [some xs]) nsf' := by
  have r := I.rep i xs l hi hl
  have hlt := at?_lt hi
  obtain ⟨h', e, hN, n1, n2, e1, e2, e3, e4⟩ := initAlias_run k w.heap l r.lbound
  refine ⟨h', _, fun j => if j = s.length then nsf i else nsf j, e, ?_⟩
  have hnew : (w.env ++ [w.heap.nLists])[s.length]? = some w.heap.nLists := by
    rw [← I.len]; simp
  have hold : ∀ j, j < s.length → (w.env ++ [w.heap.nLists])[j]? = w.env[j]? := by
    intro j hj; rw [List.getElem?_append_left (by rw [I.len]; exact hj)]
  have hlb : ∀ j ys m, s.at? j = some ys → w.env[j]? = some m → m < w.heap.nLists :=
    fun j ys m hj hm => (I.rep j ys m hj hm).lbound
  have own : ∀ j ys m a, s.at? j = some ys → w.env[j]? = some m →
      (Own k h' m (nsf j) a ↔ Own k w.heap m (nsf j) a) := by
    intro j ys m a hj hm
    unfold Own; rw [e4 m (hlb j ys m hj hm)]
  have ownN : ∀ a, Own k h' w.heap.nLists (nsf i) a ↔ Own k w.heap l (nsf i) a := by
    intro a; unfold Own; rw [e1]
  refine ⟨by simp [I.len], ?_, ?_⟩
  · intro j ys m hj hm
    rcases (at?_moved hi).1 hj with ⟨rfl, rfl⟩ | ⟨hji, hjl, hj'⟩
    · rw [hnew] at hm; cases hm
      simp only [if_true]
      exact r.same hN n1 (by show _ < h'.nLists; omega) e1 e2 e3
    · rw [hold j hjl] at hm
      simp only [if_neg (Nat.ne_of_lt hjl)]
      have hb := hlb j ys m hj' hm
      have h4 := e4 m hb
      exact (I.rep j ys m hj' hm).same hN n1 (by show _ < h'.nLists; omega) (by show (h'.lobj m).head = _; rw [h4])
        (by show (h'.lobj m).length = _; rw [h4]) (fun _ => by show (h'.lobj m).tail = _; rw [h4])
  · intro j j' ys ys' m m' hne hj hj' hm hm'
    rcases (at?_moved hi).1 hj with ⟨rfl, rfl⟩ | ⟨hji, hjl, hj1⟩ <;>
      rcases (at?_moved hi).1 hj' with ⟨rfl, rfl⟩ | ⟨hji', hjl', hj1'⟩
    · exact absurd rfl hne
    · rw [hold j' hjl'] at hm'
      rw [hnew] at hm; cases hm
      simp only [if_true, if_neg (Nat.ne_of_lt hjl')]
      have hb := hlb j' ys' m' hj1' hm'
      refine ⟨by omega, fun a ha => ?_⟩
      show ¬ Own k h' m' (nsf j') a
      rw [own j' ys' m' a hj1' hm']
      exact (I.sep i j' ys ys' l m' (fun h => hji' h.symm) hi hj1' hl hm').2 a ((ownN a).1 ha)
    · rw [hold j hjl] at hm
      rw [hnew] at hm'; cases hm'
      simp only [if_true, if_neg (Nat.ne_of_lt hjl)]
      have hb := hlb j ys m hj1 hm
      refine ⟨by omega, fun a ha => ?_⟩
      show ¬ Own k h' w.heap.nLists (nsf i) a
      rw [ownN]
      exact (I.sep j i ys ys' m l hji hj1 hi hm hl).2 a ((own j ys m a hj1 hm).1 ha)
    · rw [hold j hjl] at hm
      rw [hold j' hjl'] at hm'
      simp only [if_neg (Nat.ne_of_lt hjl), if_neg (Nat.ne_of_lt hjl')]
      obtain ⟨h1, h2⟩ := I.sep j j' ys ys' m m' hne hj1 hj1' hm hm'
      refine ⟨h1, fun a ha => ?_⟩
      show ¬ Own k h' m' (nsf j') a
      rw [own j' ys' m' a hj1' hm']
      exact h2 a ((own j ys m a hj1 hm).1 ha)

end Extra
