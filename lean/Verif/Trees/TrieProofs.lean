import Verif.Trees.TrieSpec
import Mathlib.Data.List.Infix
import Mathlib.Data.List.Nodup

/-!
# Tries as sets of strings

`TNode.strs` lists the strings of a node and of those below it, with their word flags.
-/

set_option linter.unusedSimpArgs false

namespace Extra

/-- every key is the first character of the data of its node, and siblings have different keys -/
def Kids.Ok : Kids → Prop
  | .nil => True
  | .cons k d _ ks rest => d.head? = some k ∧ rest.child k = none ∧ ks.Ok ∧ rest.Ok

/-- the strings of the nodes below, with their word flags, depth first -/
def Kids.strs : Kids → List (Word × Bool)
  | .nil => []
  | .cons _ d b ks rest => (d, b) :: (ks.strs.map (fun e => (d ++ e.1, e.2)) ++ rest.strs)

/-- the strings of a node (the empty string) and of those below it -/
def TNode.strs (t : TNode) : List (Word × Bool) := ([], t.word) :: t.kids.strs

theorem Kids.Ok.child {c : Char} : ∀ {ks : Kids}, ks.Ok → ∀ {u}, ks.child c = some u →
    u.data.head? = some c ∧ u.kids.Ok
  | .nil, _, _, hu => by cases hu
  | .cons k d b ks rest, ⟨h1, _, h3, h4⟩, u, hu => by
    rw [Kids.child] at hu
    by_cases e : k = c
    · rw [if_pos e] at hu
      cases hu
      exact ⟨e ▸ h1, h3⟩
    · rw [if_neg e] at hu
      exact Kids.Ok.child h4 hu

theorem Kids.strs_iff : ∀ {ks : Kids}, ks.Ok → ∀ {q : Word} {b : Bool}, (q, b) ∈ ks.strs ↔
    ∃ c u q', ks.child c = some u ∧ q = u.data ++ q' ∧ (q', b) ∈ u.strs
  | .nil, _, q, b => by simp [Kids.strs, Kids.child]
  | .cons k d w ks rest, ⟨h1, h2, h3, h4⟩, q, b => by
    have ih := Kids.strs_iff h4 (q := q) (b := b)
    simp only [Kids.strs, List.mem_cons, List.mem_append, List.mem_map, ih]
    constructor
    · rintro (h | ⟨⟨q', b'⟩, h, e⟩ | ⟨c, u, q', h, rfl, hm⟩)
      · cases h
        exact ⟨k, ⟨d, w, ks⟩, [], by simp [Kids.child], by simp, by simp [TNode.strs]⟩
      · cases e
        exact ⟨k, ⟨d, w, ks⟩, q', by simp [Kids.child], rfl, by simp [TNode.strs, h]⟩
      · refine ⟨c, u, q', ?_, rfl, hm⟩
        rw [Kids.child]
        by_cases e : k = c
        · subst e; rw [h2] at h; cases h
        · rw [if_neg e]; exact h
    · rintro ⟨c, u, q', h, rfl, hm⟩
      rw [Kids.child] at h
      by_cases e : k = c
      · rw [if_pos e] at h
        cases h
        simp only [TNode.strs, List.mem_cons] at hm
        rcases hm with hm | hm
        · cases hm; simp
        · exact Or.inr (Or.inl ⟨_, hm, rfl⟩)
      · rw [if_neg e] at h
        exact Or.inr (Or.inr ⟨c, u, q', h, rfl, hm⟩)

theorem head_append {d q : Word} {c : Char} (h : d.head? = some c) : (d ++ q).head? = some c := by
  cases d with
  | nil => cases h
  | cons a d => exact h

theorem data_ne {d : Word} {c : Char} (h : d.head? = some c) : d ≠ [] := by
  rintro rfl; cases h

theorem Kids.strs_ne {ks : Kids} (h : ks.Ok) {q : Word} {b : Bool} (hq : (q, b) ∈ ks.strs) :
    q ≠ [] := by
  obtain ⟨c, u, q', hu, rfl, _⟩ := (Kids.strs_iff h).1 hq
  have := data_ne (h.child hu).1
  simp [this]

theorem TNode.strs_nil {t : TNode} (h : t.kids.Ok) {b : Bool} : ([], b) ∈ t.strs ↔ b = t.word := by
  simp only [TNode.strs, List.mem_cons, Prod.mk.injEq, true_and, or_iff_left_iff_imp]
  intro hb
  exact absurd rfl (Kids.strs_ne h hb)

theorem TNode.strs_cons {t : TNode} (h : t.kids.Ok) {c : Char} {q : Word} {b : Bool} :
    (c :: q, b) ∈ t.strs ↔
      ∃ u q', t.kids.child c = some u ∧ c :: q = u.data ++ q' ∧ (q', b) ∈ u.strs := by
  have e0 : (c :: q, b) ∈ t.strs ↔ (c :: q, b) ∈ t.kids.strs := by simp [TNode.strs]
  rw [e0, Kids.strs_iff h]
  constructor
  · rintro ⟨c', u, q', hu, e, hm⟩
    have := head_append (q := q') (h.child hu).1
    rw [← e] at this
    cases this
    exact ⟨u, q', hu, e, hm⟩
  · rintro ⟨u, q', hu, e, hm⟩
    exact ⟨c, u, q', hu, e, hm⟩

theorem TNode.strs_child {t : TNode} (h : t.kids.Ok) {c : Char} {u : TNode}
    (hu : t.kids.child c = some u) {q : Word} {b : Bool} :
    (u.data ++ q, b) ∈ t.strs ↔ (q, b) ∈ u.strs := by
  obtain ⟨hd, _⟩ := h.child hu
  obtain ⟨d, e⟩ : ∃ d, u.data = c :: d := by
    cases hh : u.data with
    | nil => rw [hh] at hd; cases hd
    | cons a d => rw [hh] at hd; cases hd; exact ⟨d, rfl⟩
  rw [e, List.cons_append, TNode.strs_cons h]
  constructor
  · rintro ⟨u', q', hu', e', hm⟩
    rw [hu] at hu'
    cases hu'
    rw [e, List.cons_append, List.cons.injEq] at e'
    rw [List.append_cancel_left e'.2]
    exact hm
  · intro hm
    exact ⟨u, q, hu, by rw [e]; rfl, hm⟩

/-! ## References -/

theorem Kids.at_cons {ks : Kids} (h : ks.Ok) {c : Char} {p : Word} :
    ks.at (c :: p) = match ks.child c with
      | none => none
      | some u => if c :: p = u.data then some u else if u.data <+: c :: p then
          u.kids.at ((c :: p).drop u.data.length) else none := by
  induction ks with
  | nil => rfl
  | cons k d b ks rest _ ih =>
    rw [Kids.at, Kids.child]
    by_cases e : k = c
    · subst e
      simp
    · rw [if_neg (by simpa using fun h => e h.symm), if_neg e]
      exact ih h.2.2.2

theorem TNode.at_child {t : TNode} (h : t.kids.Ok) {c : Char} {u : TNode}
    (hu : t.kids.child c = some u) (q : Word) : t.at (u.data ++ q) = u.at q := by
  obtain ⟨hd, _⟩ := h.child hu
  obtain ⟨d, e⟩ : ∃ d, u.data = c :: d := by
    cases hh : u.data with
    | nil => rw [hh] at hd; cases hd
    | cons a d => rw [hh] at hd; cases hd; exact ⟨d, rfl⟩
  have e1 : u.data ++ q = c :: (d ++ q) := by rw [e]; rfl
  rw [e1, TNode.at, Kids.at_cons h, hu, ← e1]
  simp only
  cases q with
  | nil => simp [TNode.at]
  | cons a q => simp [TNode.at]

/-- the node a string refers to, step by step -/
inductive NodeAt : TNode → Word → TNode → Prop
  | here (t : TNode) : NodeAt t [] t
  | step {t u v : TNode} {c : Char} {q : Word} (hu : t.kids.child c = some u) (r : NodeAt u q v) :
      NodeAt t (u.data ++ q) v

theorem NodeAt.ok {t v : TNode} {p : Word} (r : NodeAt t p v) (h : t.kids.Ok) : v.kids.Ok := by
  induction r with
  | here t => exact h
  | step hu r ih => exact ih (h.child hu).2

theorem NodeAt.at {t v : TNode} {p : Word} (r : NodeAt t p v) (h : t.kids.Ok) : t.at p = some v := by
  induction r with
  | here t => rfl
  | step hu r ih => rw [TNode.at_child h hu]; exact ih (h.child hu).2

theorem NodeAt.trans {t u v : TNode} {p q : Word} (r : NodeAt t p u) (s : NodeAt u q v) :
    NodeAt t (p ++ q) v := by
  induction r with
  | here t => exact s
  | step hu r ih => rw [List.append_assoc]; exact .step hu (ih s)

theorem NodeAt.child {t u : TNode} {c : Char} (hu : t.kids.child c = some u) : NodeAt t u.data u := by
  have := NodeAt.step hu (.here u)
  rwa [List.append_nil] at this

theorem NodeAt.strs {t v : TNode} {p : Word} (r : NodeAt t p v) (h : t.kids.Ok) {q : Word} {b : Bool} :
    (p ++ q, b) ∈ t.strs ↔ (q, b) ∈ v.strs := by
  induction r with
  | here t => rfl
  | step hu r ih => rw [List.append_assoc, TNode.strs_child h hu, ih (h.child hu).2]

theorem NodeAt.of_strs : ∀ (n : Nat) {t : TNode} {p : Word} {b : Bool}, p.length ≤ n → t.kids.Ok →
    (p, b) ∈ t.strs → ∃ v, NodeAt t p v ∧ v.word = b
  | _, t, [], b, _, h, hp => ⟨t, .here t, ((TNode.strs_nil h).1 hp).symm⟩
  | 0, _, _ :: _, _, hn, _, _ => by simp at hn
  | n + 1, t, c :: p, b, hn, h, hp => by
    obtain ⟨u, q, hu, e, hm⟩ := (TNode.strs_cons h).1 hp
    have hd := List.length_pos_of_ne_nil (data_ne (h.child hu).1)
    have hl := congrArg List.length e
    rw [List.length_append] at hl
    obtain ⟨v, r, hv⟩ := NodeAt.of_strs n (by omega) (h.child hu).2 hm
    exact ⟨v, by rw [e]; exact .step hu r, hv⟩

theorem mem_strs {t : TNode} (h : t.kids.Ok) {p : Word} {b : Bool} :
    (p, b) ∈ t.strs ↔ ∃ v, NodeAt t p v ∧ v.word = b := by
  constructor
  · exact NodeAt.of_strs p.length le_rfl h
  · rintro ⟨v, r, rfl⟩
    have := (r.strs h (q := []) (b := v.word)).2 ((TNode.strs_nil (r.ok h)).2 rfl)
    rwa [List.append_nil] at this

theorem NodeAt.unique {t u v : TNode} {p : Word} (h : t.kids.Ok) (r : NodeAt t p u)
    (s : NodeAt t p v) : u = v := by
  have := r.at h
  rw [s.at h] at this
  exact (Option.some.inj this).symm

/-! ## Different nodes have different strings -/

theorem Kids.strs_head {ks : Kids} (h : ks.Ok) {q : Word} {b : Bool} (hq : (q, b) ∈ ks.strs) {k : Char}
    (hk : ks.child k = none) : q.head? ≠ some k := by
  obtain ⟨c, u, q', hu, rfl, _⟩ := (Kids.strs_iff h).1 hq
  rw [head_append (h.child hu).1]
  rintro e
  cases e
  rw [hk] at hu; cases hu

theorem Kids.nodup : ∀ {ks : Kids}, ks.Ok → (ks.strs.map Prod.fst).Nodup
  | .nil, _ => by simp [Kids.strs]
  | .cons k d b ks rest, ⟨h1, h2, h3, h4⟩ => by
    have i1 := Kids.nodup h3
    have i2 := Kids.nodup h4
    simp only [Kids.strs, List.map_cons, List.map_append, List.map_map]
    have e : (Prod.fst ∘ fun e : Word × Bool => (d ++ e.1, e.2)) = (fun q => d ++ q) ∘ Prod.fst := rfl
    rw [e, ← List.map_map, List.nodup_cons, List.nodup_append]
    refine ⟨?_, ?_, i2, ?_⟩
    · intro hm
      rcases List.mem_append.1 hm with hm | hm
      · obtain ⟨q, hq, e⟩ := List.mem_map.1 hm
        obtain ⟨⟨q', b'⟩, hq', rfl⟩ := List.mem_map.1 hq
        have := Kids.strs_ne h3 hq'
        simp at e
        exact this e
      · obtain ⟨⟨q', b'⟩, hq', rfl⟩ := List.mem_map.1 hm
        exact Kids.strs_head h4 hq' h2 h1
    · exact i1.map (fun _ _ e => List.append_cancel_left e)
    · intro a ha a' ha' e
      obtain ⟨q, hq, rfl⟩ := List.mem_map.1 ha
      obtain ⟨⟨q', b'⟩, hq', rfl⟩ := List.mem_map.1 ha'
      apply Kids.strs_head h4 hq' h2
      have e' : d ++ q = q' := e
      rw [← e']
      exact head_append h1

theorem TNode.nodup {t : TNode} (h : t.kids.Ok) : (t.strs.map Prod.fst).Nodup := by
  rw [TNode.strs, List.map_cons, List.nodup_cons]
  refine ⟨?_, Kids.nodup h⟩
  intro hm
  obtain ⟨⟨q', b'⟩, hq', e⟩ := List.mem_map.1 hm
  exact Kids.strs_ne h hq' e

theorem strs_flag {t : TNode} (h : t.kids.Ok) {p : Word} {b b' : Bool} (hb : (p, b) ∈ t.strs)
    (hb' : (p, b') ∈ t.strs) : b = b' := by
  obtain ⟨u, r, rfl⟩ := (mem_strs h).1 hb
  obtain ⟨v, s, rfl⟩ := (mem_strs h).1 hb'
  rw [r.unique h s]

/-! ## Changing a node -/

theorem Kids.child_set (c c' : Char) (t : TNode) : ∀ ks : Kids,
    (ks.set c t).child c' = if c = c' then some t else ks.child c'
  | .nil => by simp [Kids.set, Kids.child]
  | .cons k d b ks rest => by
    rw [Kids.set]
    by_cases e : k = c
    · rw [if_pos e]
      subst e
      simp only [Kids.child]
      by_cases e' : k = c'
      · rw [if_pos e', if_pos e']
      · rw [if_neg e', if_neg e', if_neg e']
    · rw [if_neg e]
      simp only [Kids.child]
      rw [Kids.child_set c c' t rest]
      by_cases e' : k = c'
      · have : c ≠ c' := fun h => e (e'.trans h.symm)
        rw [if_pos e', if_neg this, if_pos e']
      · rw [if_neg e', if_neg e']

theorem Kids.Ok.set {c : Char} {t : TNode} (ht : t.data.head? = some c) (hk : t.kids.Ok) :
    ∀ {ks : Kids}, ks.Ok → (ks.set c t).Ok
  | .nil, _ => ⟨ht, rfl, hk, trivial⟩
  | .cons k d b ks rest, ⟨h1, h2, h3, h4⟩ => by
    rw [Kids.set]
    by_cases e : k = c
    · rw [if_pos e]; subst e; exact ⟨ht, h2, hk, h4⟩
    · rw [if_neg e]
      refine ⟨h1, ?_, h3, Kids.Ok.set ht hk h4⟩
      rw [Kids.child_set, if_neg (fun h => e h.symm)]
      exact h2

theorem Kids.child_del (c c' : Char) : ∀ {ks : Kids}, ks.Ok →
    (ks.del c).child c' = if c = c' then none else ks.child c'
  | .nil, _ => by simp [Kids.del, Kids.child]
  | .cons k d b ks rest, ⟨h1, h2, h3, h4⟩ => by
    rw [Kids.del]
    by_cases e : k = c
    · rw [if_pos e]
      subst e
      simp only [Kids.child]
      by_cases e' : k = c'
      · rw [if_pos e', ← e']; exact h2
      · rw [if_neg e', if_neg e']
    · rw [if_neg e]
      simp only [Kids.child]
      rw [Kids.child_del c c' h4]
      by_cases e' : k = c'
      · have : c ≠ c' := fun h => e (e'.trans h.symm)
        rw [if_pos e', if_neg this, if_pos e']
      · rw [if_neg e', if_neg e']

theorem Kids.Ok.del (c : Char) : ∀ {ks : Kids}, ks.Ok → (ks.del c).Ok
  | .nil, _ => trivial
  | .cons k d b ks rest, ⟨h1, h2, h3, h4⟩ => by
    rw [Kids.del]
    by_cases e : k = c
    · rw [if_pos e]; exact h4
    · rw [if_neg e]
      refine ⟨h1, ?_, h3, Kids.Ok.del c h4⟩
      rw [Kids.child_del c k h4, if_neg (fun h => e h.symm)]
      exact h2

/-- the number of nodes, itself included -/
def TNode.size (t : TNode) : Nat := t.strs.length

/-- the number of nodes below -/
def Kids.size (ks : Kids) : Nat := ks.strs.length

theorem TNode.size_eq (t : TNode) : t.size = 1 + t.kids.size := by
  simp [TNode.size, Kids.size, TNode.strs, Nat.add_comm]

theorem Kids.size_cons (k : Char) (d : Word) (b : Bool) (ks rest : Kids) :
    (Kids.cons k d b ks rest).size = 1 + ks.size + rest.size := by
  simp [Kids.size, Kids.strs]; omega

theorem Kids.size_set_new {c : Char} {t : TNode} : ∀ {ks : Kids}, ks.child c = none →
    (ks.set c t).size = ks.size + t.size
  | .nil, _ => by
    rw [Kids.set, Kids.size_cons, TNode.size_eq]; simp [Kids.size, Kids.strs]
  | .cons k d b ks rest, h => by
    rw [Kids.child] at h
    by_cases e : k = c
    · rw [if_pos e] at h; cases h
    · rw [if_neg e] at h
      rw [Kids.set, if_neg e, Kids.size_cons, Kids.size_cons, Kids.size_set_new h]
      omega

theorem Kids.size_set_old {c : Char} {t u : TNode} : ∀ {ks : Kids}, ks.child c = some u →
    (ks.set c t).size + u.size = ks.size + t.size
  | .nil, h => by cases h
  | .cons k d b ks rest, h => by
    rw [Kids.child] at h
    by_cases e : k = c
    · rw [if_pos e] at h
      cases h
      rw [Kids.set, if_pos e, Kids.size_cons, Kids.size_cons, TNode.size_eq, TNode.size_eq]
      simp only
      omega
    · rw [if_neg e] at h
      have := Kids.size_set_old (t := t) h
      rw [Kids.set, if_neg e, Kids.size_cons, Kids.size_cons]
      omega

theorem Kids.size_del {c : Char} {u : TNode} : ∀ {ks : Kids}, ks.child c = some u →
    (ks.del c).size + u.size = ks.size
  | .nil, h => by cases h
  | .cons k d b ks rest, h => by
    rw [Kids.child] at h
    by_cases e : k = c
    · rw [if_pos e] at h
      cases h
      rw [Kids.del, if_pos e, Kids.size_cons, TNode.size_eq]
      simp only
      omega
    · rw [if_neg e] at h
      have := Kids.size_del h
      rw [Kids.del, if_neg e, Kids.size_cons, Kids.size_cons]
      omega

theorem Kids.modify_cons {f : TNode → TNode} : ∀ {ks : Kids}, ks.Ok → ∀ {c : Char} {p : Word}
    {u : TNode}, ks.child c = some u →
    ks.modify f (c :: p) = ks.set c (if c :: p = u.data then f u
      else if u.data <+: c :: p then { u with kids := u.kids.modify f ((c :: p).drop u.data.length) }
      else u)
  | .nil, _, c, p, u, hu => by cases hu
  | .cons k d b ks rest, ⟨h1, h2, h3, h4⟩, c, p, u, hu => by
    rw [Kids.child] at hu
    rw [Kids.modify, Kids.set]
    by_cases e : k = c
    · rw [if_pos e] at hu
      cases hu
      subst e
      simp only [List.head?_cons, if_true]
      by_cases e1 : k :: p = d
      · rw [if_pos e1, if_pos e1]
      · rw [if_neg e1, if_neg e1]
        by_cases e2 : d <+: k :: p
        · rw [if_pos e2, if_pos e2]
        · rw [if_neg e2, if_neg e2]
    · rw [if_neg e] at hu
      rw [if_neg e, if_neg (by simpa using fun h => e h.symm)]
      rw [Kids.modify_cons h4 hu]

theorem TNode.modify_child {f : TNode → TNode} {t : TNode} (h : t.kids.Ok) {c : Char} {u : TNode}
    (hu : t.kids.child c = some u) (q : Word) :
    t.modify f (u.data ++ q) = t.setChild c (u.modify f q) := by
  obtain ⟨hd, _⟩ := h.child hu
  obtain ⟨d, e⟩ : ∃ d, u.data = c :: d := by
    cases hh : u.data with
    | nil => rw [hh] at hd; cases hd
    | cons a d => rw [hh] at hd; cases hd; exact ⟨d, rfl⟩
  have e1 : u.data ++ q = c :: (d ++ q) := by rw [e]; rfl
  rw [e1, TNode.modify, TNode.setChild, Kids.modify_cons h hu, ← e1]
  cases q with
  | nil => simp [TNode.modify]
  | cons a q => simp [TNode.modify]

theorem TNode.modify_data {f : TNode → TNode} (t : TNode) {p : Word} (hp : p ≠ []) :
    (t.modify f p).data = t.data ∧ (t.modify f p).word = t.word := by
  cases p with
  | nil => exact absurd rfl hp
  | cons c p => exact ⟨rfl, rfl⟩

theorem NodeAt.modify {f : TNode → TNode} {t v : TNode} {p : Word} (r : NodeAt t p v)
    (h : t.kids.Ok) (hf : (f v).data = v.data) (hk : (f v).kids.Ok) :
    NodeAt (t.modify f p) p (f v) ∧ (t.modify f p).kids.Ok ∧ (t.modify f p).data = t.data ∧
      (t.modify f p).size + v.size = t.size + (f v).size ∧
      ∀ {q : Word} {b : Bool}, ¬ p <+: q → ((q, b) ∈ (t.modify f p).strs ↔ (q, b) ∈ t.strs) := by
  induction r with
  | here t => exact ⟨.here _, hk, hf, by simp only [TNode.modify]; omega,
      fun hq => absurd (List.nil_prefix) hq⟩
  | @step t u v c q hu r ih =>
    obtain ⟨hd, hu'⟩ := h.child hu
    obtain ⟨i1, i2, i3, i4, i5⟩ := ih hu' hf hk
    have hm : t.modify f (u.data ++ q) = t.setChild c (u.modify f q) := TNode.modify_child h hu q
    have hc : (t.setChild c (u.modify f q)).kids.child c = some (u.modify f q) := by
      rw [TNode.setChild, Kids.child_set, if_pos rfl]
    have hok : (t.setChild c (u.modify f q)).kids.Ok :=
      Kids.Ok.set (by rw [i3]; exact hd) i2 h
    rw [hm]
    refine ⟨?_, hok, rfl, ?_, ?_⟩
    · have := NodeAt.step hc i1
      rwa [i3] at this
    · have s1 := TNode.size_eq t
      have s2 := TNode.size_eq (t.setChild c (u.modify f q))
      have := Kids.size_set_old (t := u.modify f q) hu
      simp only [TNode.setChild] at s2 ⊢
      omega
    · intro q' b hq'
      cases q' with
      | nil => rw [TNode.strs_nil h, TNode.strs_nil hok]; rfl
      | cons a q' =>
        rw [TNode.strs_cons h, TNode.strs_cons hok]
        simp only [TNode.setChild, Kids.child_set]
        by_cases e : c = a
        · subst e
          simp only [if_true, hu, Option.some.injEq]
          constructor
          · rintro ⟨_, q'', rfl, e, hm⟩
            rw [i3] at e
            refine ⟨u, q'', rfl, e, (i5 ?_).1 hm⟩
            intro hpre
            exact hq' (by rw [e]; exact (List.prefix_append_right_inj _).2 hpre)
          · rintro ⟨_, q'', rfl, e, hm⟩
            refine ⟨_, q'', rfl, by rw [i3]; exact e, (i5 ?_).2 hm⟩
            intro hpre
            exact hq' (by rw [e]; exact (List.prefix_append_right_inj _).2 hpre)
        · simp only [if_neg e]

end Extra
