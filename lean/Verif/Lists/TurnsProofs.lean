import Verif.Lists.Turns
import Verif.Lists.PrioRefine
import Verif.Lists.PrioAux

/-! # Helper lemmas on the turns of loops -/

set_option linter.unusedSectionVars false

namespace Extra
variable {V X α β : Type}

/-- the shortest way to a position in a list of `n` items: from the head, in a `DoublyLinkedList` from the nearer
end -/
def way (k : Kind) (n p : Nat) : Nat :=
  match k with
  | .dll => min p (n - p)
  | _ => p

theorem T.bind_free {m : T V X α} {f : α → T V X β} {h : Heap V X} (hf : ∀ a h, (f a h).1 = 0) :
    ((m >>= f) h).1 = (m h).1 := by
  simp only [Bind.bind, T.bind]
  rcases m h with ⟨n, _ | a, h1⟩
  · rfl
  · simp [hf]

theorem T.of_bind (m : M V X α) (f : α → T V X β) (h : Heap V X) :
    (T.of m >>= f) h = match m h with
      | (.ok a, h') => f a h'
      | (.error e, h') => (0, .error e, h') := by
  simp only [Bind.bind, T.bind, T.of]
  rcases m h with ⟨_ | a, h1⟩ <;> rfl

theorem T.bind_le {m : T V X α} {f : α → T V X β} {h : Heap V X} {a b : Nat} (hm : (m h).1 ≤ a)
    (hf : ∀ x h', (m h).2 = (.ok x, h') → (f x h').1 ≤ b) : ((m >>= f) h).1 ≤ b + a := by
  simp only [Bind.bind, T.bind]
  rcases hq : m h with ⟨n, _ | x, h1⟩
  · rw [hq] at hm
    exact hm.trans (Nat.le_add_left _ _)
  · rw [hq] at hm
    exact Nat.add_le_add (hf x h1 (by rw [hq])) hm

theorem T.snd_eq (m : T V X α) (h : Heap V X) : (m h).2 = m.erase h := rfl

section Model
variable [PyData V] [Inhabited X]

theorem getNodeLoopT_le : ∀ (n : Nat) (p c : Option Addr) (h : Heap V X), (getNodeLoopT n p c h).1 ≤ n
  | 0, _, _, _ => Nat.le_refl _
  | n + 1, _, c, h => by
    rw [getNodeLoopT]
    exact T.bind_le (Nat.le_refl _) fun x h' _ => getNodeLoopT_le n c x h'

theorem getNodeLoopT_ok : ∀ (n : Nat) (p c : Option Addr) (h : Heap V X) {r : Option Addr × Option Addr},
    (getNodeLoopT n p c h).2.1 = .ok r → (getNodeLoopT n p c h).1 = n
  | 0, _, _, _, _, _ => rfl
  | n + 1, _, none, h, _, e => by simp [getNodeLoopT, Bind.bind, T.bind, T.turn, getNext, deref, M.bind, M.throw] at e
  | n + 1, _, some c, h, r, e => by
    rw [getNodeLoopT] at e ⊢
    simp only [Bind.bind, T.bind, T.turn, run_getNext] at e ⊢
    rw [getNodeLoopT_ok n _ _ _ e]

theorem backLoopT_le : ∀ (n : Nat) (c : Option Addr) (h : Heap V X), (backLoopT n c h).1 ≤ n
  | 0, _, _ => Nat.le_refl _
  | n + 1, c, h => by
    rw [backLoopT]
    exact T.bind_le (Nat.le_refl _) fun x h' _ => backLoopT_le n x h'

theorem backLoopT_ok : ∀ (n : Nat) (c : Option Addr) (h : Heap V X) {r : Option Addr},
    (backLoopT n c h).2.1 = .ok r → (backLoopT n c h).1 = n
  | 0, _, _, _, _ => rfl
  | n + 1, none, h, _, e => by simp [backLoopT, Bind.bind, T.bind, T.turn, getPrev, deref, M.bind, M.throw] at e
  | n + 1, some c, h, r, e => by
    rw [backLoopT] at e ⊢
    simp only [Bind.bind, T.bind, T.turn, run_getPrev] at e ⊢
    rw [backLoopT_ok n _ _ e]

theorem way_dll_lt {n p : Nat} (h : p ≤ n / 2) : way .dll n p = p := by simp only [way]; omega
theorem way_dll_gt {n p : Nat} (h : ¬ p ≤ n / 2) : way .dll n p = n - p := by simp only [way]; omega

theorem getNodeT_le (k : Kind) (l : Addr) (i : Nat) (h : Heap V X) :
    (getNodeT k l i h).1 ≤ way k (h.lobj l).length i := by
  rw [getNodeT, T.of_bind]
  simp only [run_getList]
  cases k with
  | ll => exact getNodeLoopT_le _ _ _ _
  | cll => exact getNodeLoopT_le _ _ _ _
  | dll =>
    dsimp only
    split
    · rename_i hi; rw [way_dll_lt hi]; exact getNodeLoopT_le _ _ _ _
    · rename_i hi
      rw [way_dll_gt hi, T.bind_free]
      · exact backLoopT_le _ _ _
      · intro a h
        exact T.bind_free (fun _ _ => rfl)

theorem getNodeT_ok (k : Kind) (l : Addr) (i : Nat) (h : Heap V X) {r : Option Addr × Option Addr}
    (e : (getNodeT k l i h).2.1 = .ok r) : (getNodeT k l i h).1 = way k (h.lobj l).length i := by
  rw [getNodeT, T.of_bind] at e ⊢
  simp only [run_getList] at e ⊢
  cases k with
  | ll => exact getNodeLoopT_ok _ _ _ _ e
  | cll => exact getNodeLoopT_ok _ _ _ _ e
  | dll =>
    dsimp only at e ⊢
    split
    · rename_i hi; rw [way_dll_lt hi]; rw [if_pos hi] at e; exact getNodeLoopT_ok _ _ _ _ e
    · rename_i hi
      rw [if_neg hi] at e
      rw [way_dll_gt hi, T.bind_free]
      · simp only [Bind.bind, T.bind] at e
        rcases hq : backLoopT ((h.lobj l).length - i) (h.lobj l).tail h with ⟨n, _ | a, h1⟩
        · rw [hq] at e; simp at e
        · have := backLoopT_ok ((h.lobj l).length - i) (h.lobj l).tail h (r := a) (by rw [hq])
          rw [hq] at this
          exact this
      · intro a h
        exact T.bind_free (fun _ _ => rfl)

/-- walking to a position and doing something without a loop there -/
theorem walk_le {k : Kind} {l : Addr} {i : Nat} {f : Option Addr × Option Addr → T V X α} (h : Heap V X)
    (hf : ∀ a h, (f a h).1 = 0) : ((getNodeT k l i >>= f) h).1 ≤ way k (h.lobj l).length i := by
  rw [T.bind_free hf]
  exact getNodeT_le _ _ _ _

theorem walk_ok {k : Kind} {l : Addr} {i : Nat} {f : Option Addr × Option Addr → T V X α} {h : Heap V X} {r : α}
    (hf : ∀ a h, (f a h).1 = 0) (e : ((getNodeT k l i >>= f) h).2.1 = .ok r) :
    ((getNodeT k l i >>= f) h).1 = way k (h.lobj l).length i := by
  rw [T.bind_free hf]
  simp only [Bind.bind, T.bind] at e
  rcases hq : getNodeT k l i h with ⟨n, _ | a, h1⟩
  · rw [hq] at e; simp at e
  · have := getNodeT_ok k l i h (r := a) (by rw [hq])
    rw [hq] at this
    exact this

theorem insertAtT_le (k : Kind) (l : Addr) (i : Nat) (v : V) (h : Heap V X) :
    (insertAtT k l i v h).1 ≤ way k (h.lobj l).length i :=
  walk_le h (fun _ _ => T.bind_free (fun _ _ => rfl))

theorem insertAtT_ok {k : Kind} {l : Addr} {i : Nat} {v : V} {h : Heap V X} {r : Unit}
    (e : (insertAtT k l i v h).2.1 = .ok r) : (insertAtT k l i v h).1 = way k (h.lobj l).length i :=
  walk_ok (fun _ _ => T.bind_free (fun _ _ => rfl)) e

theorem replaceValueT_ok {k : Kind} {l : Addr} {i : Nat} {v : V} {h : Heap V X} {r : Unit}
    (e : (replaceValueT k l i v h).2.1 = .ok r) : (replaceValueT k l i v h).1 = way k (h.lobj l).length i :=
  walk_ok (fun _ _ => T.bind_free (fun _ _ => rfl)) e

theorem removeIdxT_le (k : Kind) (l : Addr) (i : Nat) (h : Heap V X) :
    (removeIdxT k l i h).1 ≤ way k (h.lobj l).length i :=
  walk_le h (fun _ _ => T.bind_free (fun _ _ => rfl))

theorem removeIdxT_ok {k : Kind} {l : Addr} {i : Nat} {h : Heap V X} {r : Unit}
    (e : (removeIdxT k l i h).2.1 = .ok r) : (removeIdxT k l i h).1 = way k (h.lobj l).length i :=
  walk_ok (fun _ _ => T.bind_free (fun _ _ => rfl)) e

end Model
section Prio
variable {P : Type} [PyData V] [PyShow V] [LinearOrder P] [BoundedOrder P] [Inhabited P] {h : Heap V P}

theorem prioLoopT_chain (f : P → P → P) : ∀ (ns : List Addr) (fuel : Nat) (acc : P),
    ns.length ≤ fuel → Lnk h ns none → (prioLoopT f fuel acc ns.head? h).1 = ns.length
  | [], fuel, _, _, _ => by cases fuel <;> rfl
  | a :: as, 0, _, hf, _ => by simp at hf
  | a :: as, fuel + 1, acc, hf, hl => by
    have ih := prioLoopT_chain f as fuel (f (h.node a).ext acc) (by simpa using hf) hl.2
    have hn : (h.node a).next = as.head? := by rw [hl.1]; simp
    simp only [List.head?_cons, prioLoopT, Bind.bind, T.bind, T.turn, run_nodeAt, hn, ih, List.length_cons]

theorem findPrioT_chain (key : P) : ∀ (ns : List Addr) (fuel : Nat), ns.length ≤ fuel → Lnk h ns none →
    (findPrioT key fuel ns.head? h).1 ≤ ns.length ∧ (ns ≠ [] → 1 ≤ (findPrioT key fuel ns.head? h).1)
  | [], fuel, _, _ => by cases fuel <;> exact ⟨Nat.le_refl _, fun h => absurd rfl h⟩
  | a :: as, 0, hf, _ => by simp at hf
  | a :: as, fuel + 1, hf, hl => by
    have ih := (findPrioT_chain key as fuel (by simpa using hf) hl.2).1
    have hn : (h.node a).next = as.head? := by rw [hl.1]; simp
    simp only [List.head?_cons, findPrioT, Bind.bind, T.bind, T.turn, run_nodeAt, hn, List.length_cons]
    split
    · exact ⟨by show 0 + 1 ≤ _; omega, fun _ => Nat.le_refl _⟩
    · exact ⟨by omega, fun _ => by omega⟩

theorem updatePrioT_chain {l : Addr} {ns : List Addr} {xs : List V} (r : Rep .dll h l ns xs) (low : Bool)
    {fuel : Nat} (hf : ns.length ≤ fuel) : (updatePrioT fuel low l h).1 = xs.length := by
  rw [updatePrioT, T.of_bind, isEmpty_run r]
  cases xs with
  | nil => rfl
  | cons x xs =>
    have hne : ns ≠ [] := by rintro rfl; have := r.length_eq; simp at this
    simp only [List.isEmpty_cons, Bool.false_eq_true, if_false, T.of_bind, run_getList, r.head hne]
    rw [prioLoopT_chain _ _ _ _ hf r.links, r.length_eq]

theorem prioLoop_heap (f : P → P → P) : ∀ (fuel : Nat) (acc : P) (c : Option Addr) (h : Heap V P),
    (prioLoop f fuel acc c h).2 = h
  | n, _, none, _ => by cases n <;> rfl
  | 0, _, some _, _ => rfl
  | n + 1, acc, some a, h => by
    rw [prioLoop, run_bind, run_nodeAt]
    exact prioLoop_heap f n _ _ h

theorem updatePrio_heap (fuel : Nat) (low : Bool) (l : Addr) (h : Heap V P) :
    (updatePrio fuel low l h).2 = h := by
  simp only [updatePrio, run_bind, isEmpty, run_getList, run_pure]
  split
  · rfl
  · exact prioLoop_heap _ _ _ _ h

/-- the two loops of a `dequeue` that succeeds -/
theorem pqTakeT_cost {fuel : Nat} {low : Bool} {key : P} {l : Addr} {h h2 : Heap V P} {d : Option V} {c : P}
    (e : pqTake fuel low key l h = (.ok (d, c), h2)) :
    (pqTakeT fuel low key l h).1 =
      (updatePrioT fuel low l h2).1 + (findPrioT key fuel (h.lobj l).head h).1 := by
  simp only [pqTake, run_bind, run_getList] at e
  rw [← findPrio_erase] at e
  rw [pqTakeT, T.of_bind]
  simp only [run_getList]
  simp only [T.erase] at e
  rcases hq : findPrioT key fuel (h.lobj l).head h with ⟨n, _ | a, h1⟩
  · rw [hq] at e; simp at e
  · rw [hq] at e
    simp only [run_getData, run_getPrev] at e
    simp only [Bind.bind, T.bind, hq, T.of, run_getData, run_getPrev]
    rcases hr : removeNode .dll l (h1.node a).prev a h1 with ⟨_ | u, h3⟩
    · rw [hr] at e; simp at e
    · rw [hr] at e
      dsimp only at e ⊢
      have h4 := updatePrio_heap fuel low l h3
      rw [← updatePrio_erase] at e h4
      simp only [T.erase] at e h4
      rcases hu : updatePrioT fuel low l h3 with ⟨m, _ | c', h5⟩
      · rw [hu] at e; simp at e
      · rw [hu] at e h4
        simp only [run_pure, Prod.mk.injEq] at e h4
        obtain ⟨-, rfl⟩ := e
        subst h4
        simp [hu]

end Prio
end Extra
