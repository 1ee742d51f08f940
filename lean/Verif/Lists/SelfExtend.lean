import Verif.Lists.PropsAux

/-!
# Lemmas: a `LinkedList` or `DoublyLinkedList` extended by itself

The chain of nodes is closed into a cycle and the length doubled, so that a walk over `_length` nodes goes
round twice.
-/

namespace Extra
variable {V X : Type} [DecidableEq V] [PyData V] [Inhabited X] {k : Kind}

omit [DecidableEq V] [PyData V] [Inhabited X] in
/-- a chain whose last link is changed -/
theorem Lnk.relink {h h' : Heap V X} {as : List Addr} {p : Addr} {e e' : Option Addr}
    (hl : Lnk h (as ++ [p]) e) (hp : (h'.node p).next = e')
    (hs : ∀ a ∈ as, (h'.node a).next = (h.node a).next) : Lnk h' (as ++ [p]) e' := by
  rw [Lnk_append] at hl ⊢
  refine ⟨?_, by simpa [Lnk] using hp⟩
  have := Lnk.congr hs hl.1
  simpa using this

omit [DecidableEq V] in
/-- after the list is extended by itself a walk goes round twice -/
theorem extend_self_src (hk : k ≠ .cll) {h : Heap V X} {l : Addr} {ns : List Addr} {xs : List V}
    (fuel : Nat) (r : Rep k h l ns xs) (hne : xs ≠ []) :
    ∃ h', extend k fuel l l h = (.ok (), h') ∧ (h'.lobj l).length = (ns ++ ns).length ∧
      (h'.lobj l).head = ns.head? ∧ h.nNodes ≤ h'.nNodes ∧ Src h' (ns ++ ns) (xs ++ xs) ns.head? := by
  have hn : ns ≠ [] := by
    rintro rfl; have := r.length_eq; exact hne (List.eq_nil_of_length_eq_zero this.symm)
  obtain ⟨as, p, rfl⟩ : ∃ as q, ns = as ++ [q] := ⟨_, _, (List.dropLast_concat_getLast hn).symm⟩
  have hl0 : (h.lobj l).length ≠ 0 := by rw [r.len]; simp
  have hm : (h.lobj l).head = (as ++ [p]).head? := r.head hn
  have nd : p ∉ as := by
    have := r.nodup
    rw [List.nodup_append] at this
    exact fun hp => this.2.2 p hp p (by simp) rfl
  have key : ∀ h' : Heap V X, (∀ a, (h'.node a).data = (h.node a).data) → h'.nNodes = h.nNodes →
      (h'.node p).next = (as ++ [p]).head? → (∀ a ∈ as, (h'.node a).next = (h.node a).next) →
      Src h' ((as ++ [p]) ++ (as ++ [p])) (xs ++ xs) (as ++ [p]).head? := by
    intro h' hd hb hp hs
    have hl := Lnk.relink r.links hp hs
    refine ⟨?_, ?_, ?_, ?_⟩
    · rw [Lnk_append]
      refine ⟨?_, hl⟩
      rw [Option.or_self]; exact hl
    · have h1 : (as ++ [p]).map (fun a => (h'.node a).data) = xs.map some := by
        rw [← r.data]; exact List.map_congr_left (fun a _ => hd a)
      have h2 : ∀ ys : List Addr, (ys ++ ys).map (fun a => (h'.node a).data) =
          ys.map (fun a => (h'.node a).data) ++ ys.map (fun a => (h'.node a).data) := fun _ => List.map_append
      rw [h2, h1, List.map_append]
    · intro z hz
      exact r.normed z (by simpa using hz)
    · intro a ha
      rw [hb]; exact r.bound a ((List.mem_append.1 ha).elim id id)
  cases k with
  | cll => exact absurd rfl hk
  | ll =>
    obtain ⟨c, e, _⟩ := getNode_spec (as := as ++ [p]) (bs := []) (by simpa using r)
    have hlast : (as ++ [p]).getLast? = some p := by simp
    rw [← r.len, hlast] at e
    refine ⟨_, by simp [extend, run_bind, hl0, e, setNext]; rfl, ?_, ?_, ?_, key _ ?_ ?_ ?_ ?_⟩
    · simp [r.len]; try omega
    · simp [hm]
    · simp
    · intro a; by_cases ha : a = p <;> simp [ha, upd_ne]
    · simp
    · simp [hm]
    · intro a ha
      have : a ≠ p := fun e => nd (e ▸ ha)
      simp [upd_ne _ _ this]
  | dll =>
    have ht : (h.lobj l).tail = some p := by rw [r.tail rfl hn]; simp
    obtain ⟨m, hm'⟩ : ∃ m, (as ++ [p]).head? = some m := by
      cases as with
      | nil => exact ⟨p, rfl⟩
      | cons a as => exact ⟨a, rfl⟩
    rw [hm'] at hm key ⊢
    refine ⟨_, by simp [extend, run_bind, hl0, ht, hm, setNext]; rfl, ?_, ?_, ?_, key _ ?_ ?_ ?_ ?_⟩
    · simp [r.len]; try omega
    · simp
    · simp
    · intro a; simp only [Heap.setNode, Heap.setList, upd]
      by_cases ham : a = m <;> by_cases hap : a = p <;> by_cases hmp : m = p <;> simp_all
    · simp
    · by_cases ham : p = m <;> simp [ham, upd_ne]
    · intro a ha
      have : a ≠ p := fun e => nd (e ▸ ha)
      simp only [Heap.setNode, Heap.setList, upd]
      by_cases ham : a = m <;> by_cases hmp : m = p <;> simp_all

/-- a search that meets the value before the end of the walk -/
theorem searchLoop_found {h : Heap V X} {e : Addr} (v : V) : ∀ (bs : List Addr) {zs : List V} {fuel : Nat},
    Src h bs zs (some e) → v ∈ zs → bs.length ≤ fuel →
    ∃ a, searchLoop v fuel bs.head? h = (.ok (some a), h) ∧ (h.node a).data = some v
  | [], zs, fuel, s, hv, _ => by
    have : zs = [] := List.eq_nil_of_length_eq_zero s.length_eq.symm
    subst this; cases hv
  | b :: bs, zs, fuel, s, hv, hf => by
    obtain ⟨z, zs, rfl⟩ := s.cons_inv
    obtain ⟨d, nx, _, s'⟩ := s.uncons
    obtain ⟨f, rfl⟩ : ∃ f, fuel = f + 1 := ⟨fuel - 1, by simp at hf; omega⟩
    obtain ⟨c, hc⟩ : ∃ c, bs.head?.or (some e) = some c := by cases bs <;> simp
    rw [hc] at nx
    by_cases hz : z = v
    · refine ⟨b, ?_, by rw [d, hz]⟩
      simp only [List.head?_cons, searchLoop, run_bind, run_getNext, nx, run_getData, d, hz, if_true, run_pure]
    · have hv' : v ∈ zs := by
        rcases List.mem_cons.1 hv with h | h
        · exact absurd h.symm hz
        · exact h
      obtain ⟨a, e1, d1⟩ := searchLoop_found v bs (fuel := f) s' hv' (by simp at hf; omega)
      refine ⟨a, ?_, d1⟩
      have hb : some c = bs.head? := by
        cases bs with
        | nil =>
          have : zs = [] := List.eq_nil_of_length_eq_zero s'.length_eq.symm
          subst this; cases hv'
        | cons b' bs => simpa using hc.symm
      simp only [List.head?_cons, searchLoop, run_bind, run_getNext, nx, run_getData, d, Option.some.injEq, hz,
        if_false]
      rw [hb]; exact e1

end Extra
