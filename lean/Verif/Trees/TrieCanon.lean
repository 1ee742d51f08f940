import Verif.Trees.TrieCanonSpec
import Verif.Trees.RadixRefine

/-!
# The strings of the nodes determine the shape
-/

namespace Extra

theorem child_cons {ks : Kids} (h : ks.Ok) {c : Char} {u : TNode} (hu : ks.child c = some u) :
    ∃ d, u.data = c :: d := by
  have hd := (h.child hu).1
  cases hh : u.data with
  | nil => rw [hh] at hd; cases hd
  | cons a d => rw [hh] at hd; cases hd; exact ⟨d, rfl⟩

/-- a child of one node has a counterpart below the other, whose data starts it -/
theorem counterpart {t u : TNode} (ht : t.kids.Ok) (hu : u.kids.Ok)
    (h : ∀ q b, (q, b) ∈ t.strs → (q, b) ∈ u.strs) {c : Char} {x : TNode}
    (hx : t.kids.child c = some x) : ∃ y, u.kids.child c = some y ∧ y.data <+: x.data := by
  obtain ⟨d, e⟩ := child_cons ht hx
  have h1 : (x.data ++ [], x.word) ∈ t.strs :=
    (TNode.strs_child ht hx).2 ((TNode.strs_nil (ht.child hx).2).2 rfl)
  rw [List.append_nil] at h1
  have h2 := h _ _ h1
  rw [e] at h2
  obtain ⟨y, q, hy, e2, _⟩ := (TNode.strs_cons hu).1 h2
  exact ⟨y, hy, q, by rw [e, e2]⟩

theorem sameShape_of_strs : ∀ (n : Nat) {t u : TNode}, (∀ q b, (q, b) ∈ t.strs → q.length ≤ n) →
    t.kids.Ok → u.kids.Ok → t.data = u.data → (∀ q b, (q, b) ∈ t.strs ↔ (q, b) ∈ u.strs) →
    SameShape t u := by
  intro n
  induction n with
  | zero =>
    intro t u hn ht hu hd h
    refine .mk hd ?_ ?_
    · exact (TNode.strs_nil hu).1 ((h _ _).1 ((TNode.strs_nil ht).2 rfl))
    · intro c
      cases hx : t.kids.child c with
      | some x =>
        exfalso
        obtain ⟨d, e⟩ := child_cons ht hx
        have h1 := (TNode.strs_child ht hx).2 ((TNode.strs_nil (ht.child hx).2).2 rfl)
        have := hn _ _ h1
        rw [e] at this
        simp at this
      | none =>
        cases hy : u.kids.child c with
        | none => exact .none
        | some y =>
          obtain ⟨x, hx', _⟩ := counterpart hu ht (fun q b => (h q b).2) hy
          rw [hx] at hx'; cases hx'
  | succ n ih =>
    intro t u hn ht hu hd h
    refine .mk hd ?_ ?_
    · exact (TNode.strs_nil hu).1 ((h _ _).1 ((TNode.strs_nil ht).2 rfl))
    · intro c
      cases hx : t.kids.child c with
      | none =>
        cases hy : u.kids.child c with
        | none => exact .none
        | some y =>
          obtain ⟨x, hx', _⟩ := counterpart hu ht (fun q b => (h q b).2) hy
          rw [hx] at hx'; cases hx'
      | some x =>
        obtain ⟨y, hy, p1⟩ := counterpart ht hu (fun q b => (h q b).1) hx
        obtain ⟨x', hx', p2⟩ := counterpart hu ht (fun q b => (h q b).2) hy
        rw [hx] at hx'; cases hx'
        have e : x.data = y.data := p2.eq_of_length_le p1.length_le
        rw [hy]
        refine .some (ih ?_ (ht.child hx).2 (hu.child hy).2 e ?_)
        · intro q b hq
          have := hn _ _ ((TNode.strs_child ht hx).2 hq)
          obtain ⟨d, e'⟩ := child_cons ht hx
          rw [e'] at this
          simp at this
          omega
        · intro q b
          rw [← TNode.strs_child ht hx, ← TNode.strs_child hu hy, e, h]

theorem SameShape.of_strs {t u : TNode} (ht : t.kids.Ok) (hu : u.kids.Ok) (hd : t.data = u.data)
    (h : ∀ q b, (q, b) ∈ t.strs ↔ (q, b) ∈ u.strs) : SameShape t u := by
  obtain ⟨n, hn⟩ : ∃ n, ∀ e ∈ t.strs, e.1.length ≤ n := by
    generalize t.strs = l
    induction l with
    | nil => exact ⟨0, by simp⟩
    | cons e l ih =>
      obtain ⟨n, hn⟩ := ih
      refine ⟨n + e.1.length, ?_⟩
      intro e' he'
      rcases List.mem_cons.1 he' with rfl | he'
      · omega
      · have := hn e' he'; omega
  exact sameShape_of_strs n (fun q b hq => hn (q, b) hq) ht hu hd h

/-- the strings of the nodes with their flags, from the words and the strings alone -/
theorem strs_congr {t u : TNode} (ht : t.kids.Ok) (hu : u.kids.Ok)
    (hw : ∀ q, (q, true) ∈ t.strs ↔ (q, true) ∈ u.strs)
    (hn : ∀ q, (∃ b, (q, b) ∈ t.strs) ↔ ∃ b, (q, b) ∈ u.strs) (q : Word) (b : Bool) :
    (q, b) ∈ t.strs ↔ (q, b) ∈ u.strs := by
  cases b with
  | true => exact hw q
  | false =>
    constructor
    · intro h
      obtain ⟨b, hb⟩ := (hn q).1 ⟨_, h⟩
      cases b with
      | false => exact hb
      | true => cases strs_flag ht h ((hw q).2 hb)
    · intro h
      obtain ⟨b, hb⟩ := (hn q).2 ⟨_, h⟩
      cases b with
      | false => exact hb
      | true => cases strs_flag hu h ((hw q).1 hb)

/-- where two strings part there is a node -/
theorem fork_node : ∀ (n : Nat) {t : TNode} {q x y : Word} {a b : Char} {b1 b2 : Bool}, q.length ≤ n →
    t.kids.Ok → a ≠ b → (q ++ a :: x, b1) ∈ t.strs → (q ++ b :: y, b2) ∈ t.strs →
    ∃ w, (q, w) ∈ t.strs := by
  intro n
  induction n with
  | zero =>
    intro t q x y a b b1 b2 hq ht _ _ _
    have : q = [] := by simpa using hq
    subst this
    exact ⟨_, (TNode.strs_nil ht).2 rfl⟩
  | succ n ih =>
    intro t q x y a b b1 b2 hq ht hab h1 h2
    cases q with
    | nil => exact ⟨_, (TNode.strs_nil ht).2 rfl⟩
    | cons c q =>
      rw [List.cons_append] at h1 h2
      obtain ⟨u, q1, hu, e1, m1⟩ := (TNode.strs_cons ht).1 h1
      obtain ⟨u', q2, hu', e2, m2⟩ := (TNode.strs_cons ht).1 h2
      rw [hu] at hu'; cases hu'
      obtain ⟨d, ed⟩ := child_cons ht hu
      have hp : u.data <+: c :: q := by
        by_contra hp
        have p1 : u.data <+: (c :: q) ++ a :: x := ⟨q1, e1.symm⟩
        have p2 : u.data <+: (c :: q) ++ b :: y := ⟨q2, e2.symm⟩
        have pa : (c :: q) ++ [a] <+: u.data := by
          refine List.prefix_of_prefix_length_le (by simp) p1 ?_
          by_contra hl
          exact hp (List.prefix_of_prefix_length_le p1 (List.prefix_append _ _) (by simp at hl ⊢; omega))
        have pb : (c :: q) ++ [a] <+: (c :: q) ++ b :: y := pa.trans p2
        obtain ⟨z, hz⟩ := pb
        rw [List.append_assoc] at hz
        have := List.append_cancel_left hz
        simp at this
        exact hab this.1
      obtain ⟨q3, e3⟩ := hp
      have hl := congrArg List.length e3
      rw [ed] at hl
      simp at hl hq
      have e1' : q1 = q3 ++ a :: x := by
        have : u.data ++ q1 = u.data ++ (q3 ++ a :: x) := by
          rw [← e1, ← List.append_assoc, e3]; rfl
        exact List.append_cancel_left this
      have e2' : q2 = q3 ++ b :: y := by
        have : u.data ++ q2 = u.data ++ (q3 ++ b :: y) := by
          rw [← e2, ← List.append_assoc, e3]; rfl
        exact List.append_cancel_left this
      subst e1' e2'
      obtain ⟨w, hw⟩ := ih (by omega) (ht.child hu).2 hab m1 m2
      exact ⟨w, by rw [← e3]; exact (TNode.strs_child ht hu).2 hw⟩

end Extra
