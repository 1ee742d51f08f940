import Verif.Trees.TreeNodes
import Mathlib.Data.List.Dedup
import Mathlib.Data.List.Lattice
import Mathlib.Algebra.Order.Group.Nat
import Mathlib.Algebra.BigOperators.Group.List.Basic

/-! # Specification and helper lemmas for `TreeNode` objects: ways down from a node -/

namespace Extra
variable {V : Type}

/-- the node reached from a node by going to the child at each position given, if there is one -/
def goDown (σ : TreeStore V) : Addr → List Nat → Option Addr
  | a, [] => some a
  | a, i :: p => ((σ a).2[i]?).bind fun c => goDown σ c p

/-- `p` is a way down from `a` -/
def WayDown (σ : TreeStore V) (a : Addr) (p : List Nat) : Prop := (goDown σ a p).isSome = true

/-! ## Lists of ways -/

/-- the ways through each child in turn -/
def kidWays (f : Addr → List (List Nat)) : Nat → List Addr → List (List Nat)
  | _, [] => []
  | i, c :: cs => (f c).map (i :: ·) ++ kidWays f (i + 1) cs

theorem mem_kidWays {f : Addr → List (List Nat)} : ∀ {i : Nat} {cs : List Addr} {p : List Nat},
    p ∈ kidWays f i cs ↔ ∃ j q c, cs[j]? = some c ∧ p = (i + j) :: q ∧ q ∈ f c
  | i, [], p => by simp [kidWays]
  | i, c :: cs, p => by
    simp only [kidWays, List.mem_append, List.mem_map, mem_kidWays (i := i + 1) (cs := cs)]
    constructor
    · rintro (⟨q, hq, rfl⟩ | ⟨j, q, d, hj, rfl, hq⟩)
      · exact ⟨0, q, c, rfl, rfl, hq⟩
      · exact ⟨j + 1, q, d, by simpa using hj, by rw [Nat.add_assoc, Nat.add_comm 1], hq⟩
    · rintro ⟨j, q, d, hj, rfl, hq⟩
      cases j with
      | zero =>
        simp only [List.getElem?_cons_zero, Option.some.injEq] at hj
        subst hj
        exact .inl ⟨q, hq, rfl⟩
      | succ j => exact .inr ⟨j, q, d, by simpa using hj, by rw [Nat.add_assoc, Nat.add_comm 1], hq⟩

theorem nodup_kidWays {f : Addr → List (List Nat)} (hf : ∀ c, (f c).Nodup) : ∀ (i : Nat) (cs : List Addr),
    (kidWays f i cs).Nodup
  | _, [] => List.nodup_nil
  | i, c :: cs => by
    refine List.Nodup.append ((hf c).map fun _ _ h => (List.cons.inj h).2) (nodup_kidWays hf (i + 1) cs) ?_
    intro p h1 h2
    obtain ⟨q, _, rfl⟩ := List.mem_map.1 h1
    obtain ⟨j, q', d, _, e, _⟩ := mem_kidWays.1 h2
    have := (List.cons.inj e).1
    omega

theorem length_kidWays (f : Addr → List (List Nat)) : ∀ (i : Nat) (cs : List Addr),
    (kidWays f i cs).length = (cs.map fun c => (f c).length).sum
  | _, [] => rfl
  | i, c :: cs => by simp [kidWays, length_kidWays f (i + 1) cs]

/-- all ways down of fewer steps than `room` -/
def waysIn (σ : TreeStore V) : Nat → Addr → List (List Nat)
  | 0, _ => []
  | room + 1, a => [] :: kidWays (waysIn σ room) 0 (σ a).2

/-- all ways of fewer steps than `room` down to a node without children -/
def leafWays (σ : TreeStore V) : Nat → Addr → List (List Nat)
  | 0, _ => []
  | room + 1, a => if (σ a).2.isEmpty then [[]] else kidWays (leafWays σ room) 0 (σ a).2

theorem wayDown_cons {σ : TreeStore V} {a : Addr} {i : Nat} {p : List Nat} :
    WayDown σ a (i :: p) ↔ ∃ c, (σ a).2[i]? = some c ∧ WayDown σ c p := by
  rw [WayDown, goDown]
  cases (σ a).2[i]? with
  | none => simp
  | some c => simp [WayDown]

theorem mem_waysIn {σ : TreeStore V} : ∀ {room : Nat} {a : Addr} {p : List Nat},
    p ∈ waysIn σ room a ↔ WayDown σ a p ∧ p.length < room
  | 0, a, p => by simp [waysIn]
  | room + 1, a, p => by
    simp only [waysIn, List.mem_cons, mem_kidWays, mem_waysIn (room := room)]
    cases p with
    | nil => simp [WayDown, goDown]
    | cons i p =>
      simp only [reduceCtorEq, false_or, Nat.zero_add, List.cons.injEq, wayDown_cons, List.length_cons,
        Nat.add_lt_add_iff_right]
      constructor
      · rintro ⟨j, q, c, hj, ⟨rfl, rfl⟩, hw, hl⟩
        exact ⟨⟨c, hj, hw⟩, hl⟩
      · rintro ⟨⟨c, hj, hw⟩, hl⟩
        exact ⟨i, p, c, hj, ⟨rfl, rfl⟩, hw, hl⟩

theorem nodup_waysIn (σ : TreeStore V) : ∀ (room : Nat) (a : Addr), (waysIn σ room a).Nodup
  | 0, _ => List.nodup_nil
  | room + 1, a => by
    refine List.nodup_cons.2 ⟨?_, nodup_kidWays (nodup_waysIn σ room) 0 _⟩
    intro h
    obtain ⟨_, _, _, _, e, _⟩ := mem_kidWays.1 h
    cases e

theorem goDown_cons_some {σ : TreeStore V} {a b : Addr} {i : Nat} {p : List Nat} :
    goDown σ a (i :: p) = some b ↔ ∃ c, (σ a).2[i]? = some c ∧ goDown σ c p = some b := by
  rw [goDown]
  cases (σ a).2[i]? with
  | none => simp
  | some c => simp

theorem mem_leafWays {σ : TreeStore V} : ∀ {room : Nat} {a : Addr} {p : List Nat},
    p ∈ leafWays σ room a ↔ (∃ b, goDown σ a p = some b ∧ (σ b).2 = []) ∧ p.length < room
  | 0, a, p => by simp [leafWays]
  | room + 1, a, p => by
    rw [leafWays]
    by_cases h : (σ a).2 = []
    · rw [if_pos (by simp [h])]
      cases p with
      | nil => simp [goDown, h]
      | cons i p => simp [goDown, h]
    · rw [if_neg (by simpa using h)]
      simp only [mem_kidWays, mem_leafWays (room := room)]
      cases p with
      | nil => simp [goDown, h]
      | cons i p =>
        simp only [Nat.zero_add, List.cons.injEq, goDown_cons_some, List.length_cons, Nat.add_lt_add_iff_right]
        constructor
        · rintro ⟨j, q, c, hj, ⟨rfl, rfl⟩, ⟨b, hb, hl⟩, hlen⟩
          exact ⟨⟨b, ⟨c, hj, hb⟩, hl⟩, hlen⟩
        · rintro ⟨⟨b, ⟨c, hj, hb⟩, hl⟩, hlen⟩
          exact ⟨i, p, c, hj, ⟨rfl, rfl⟩, ⟨b, hb, hl⟩, hlen⟩

theorem nodup_leafWays (σ : TreeStore V) : ∀ (room : Nat) (a : Addr), (leafWays σ room a).Nodup
  | 0, _ => List.nodup_nil
  | room + 1, a => by
    rw [leafWays]
    split
    · simp
    · exact nodup_kidWays (nodup_leafWays σ room) 0 _

/-! ## The recursive calls -/

theorem foldlM_sum_some {f : Addr → Option Nat} : ∀ {cs : List Addr} {t n : Nat},
    cs.foldlM (fun total c => (f c).map (total + ·)) t = some n →
      (∀ c ∈ cs, (f c).isSome = true) ∧ n = t + (cs.map fun c => (f c).getD 0).sum
  | [], t, n, h => by
    simp only [List.foldlM_nil, Option.pure_def, Option.some.injEq] at h
    simp [h]
  | c :: cs, t, n, h => by
    rw [List.foldlM_cons] at h
    cases e : f c with
    | none => simp [e] at h
    | some k =>
      simp only [e, Option.map_some, Option.bind_eq_bind, Option.bind_some] at h
      obtain ⟨h1, h2⟩ := foldlM_sum_some h
      refine ⟨?_, ?_⟩
      · intro d hd
        rcases List.mem_cons.1 hd with rfl | hd
        · simp [e]
        · exact h1 d hd
      · rw [h2]; simp [e]; omega

theorem foldlM_isSome {f : Addr → Option Nat} {g : Nat → Nat → Nat} : ∀ {cs : List Addr} {t : Nat},
    (∀ c ∈ cs, (f c).isSome = true) →
      (cs.foldlM (fun total c => (f c).map (g total)) t).isSome = true
  | [], t, _ => rfl
  | c :: cs, t, h => by
    rw [List.foldlM_cons]
    obtain ⟨k, e⟩ := Option.isSome_iff_exists.1 (h c List.mem_cons_self)
    simp only [e, Option.map_some, Option.bind_eq_bind, Option.bind_some]
    exact foldlM_isSome fun d hd => h d (List.mem_cons_of_mem _ hd)

theorem foldlM_isSome_of {f : Addr → Option Nat} {g : Nat → Nat → Nat} : ∀ {cs : List Addr} {t : Nat},
    (cs.foldlM (fun total c => (f c).map (g total)) t).isSome = true → ∀ c ∈ cs, (f c).isSome = true
  | [], t, _, c, hc => by cases hc
  | c :: cs, t, h, d, hd => by
    rw [List.foldlM_cons] at h
    cases e : f c with
    | none => simp [e] at h
    | some k =>
      simp only [e, Option.map_some, Option.bind_eq_bind, Option.bind_some] at h
      rcases List.mem_cons.1 hd with rfl | hd
      · simp [e]
      · exact foldlM_isSome_of h d hd

theorem ways_short_succ {σ : TreeStore V} {room : Nat} {a : Addr} :
    (∀ p, WayDown σ a p → p.length < room + 1) ↔ ∀ c ∈ (σ a).2, ∀ p, WayDown σ c p → p.length < room := by
  constructor
  · intro h c hc p hp
    obtain ⟨i, hi⟩ := List.getElem?_of_mem hc
    have := h (i :: p) (wayDown_cons.2 ⟨c, hi, hp⟩)
    simpa using this
  · intro h p hp
    cases p with
    | nil => simp
    | cons i p =>
      obtain ⟨c, hc, hp⟩ := wayDown_cons.1 hp
      have := h c (List.mem_of_getElem? hc) p hp
      simpa using this

theorem no_short {σ : TreeStore V} {a : Addr} : ¬ ∀ p, WayDown σ a p → p.length < 0 := by
  intro h
  exact absurd (h [] rfl) (by simp)

theorem tnCount_isSome (σ : TreeStore V) : ∀ (room : Nat) (a : Addr),
    (tnCount σ room a).isSome = true ↔ ∀ p, WayDown σ a p → p.length < room
  | 0, a => by simpa [tnCount] using no_short (σ := σ) (a := a)
  | room + 1, a => by
    rw [ways_short_succ, tnCount]
    constructor
    · intro h c hc
      exact (tnCount_isSome σ room c).1 (foldlM_isSome_of (g := (· + ·)) h c hc)
    · intro h
      exact foldlM_isSome (g := (· + ·)) fun c hc => (tnCount_isSome σ room c).2 (h c hc)

theorem tnCount_eq (σ : TreeStore V) : ∀ (room : Nat) (a : Addr) (n : Nat), tnCount σ room a = some n →
    n = (waysIn σ room a).length
  | 0, a, n, h => by cases h
  | room + 1, a, n, h => by
    obtain ⟨h1, h2⟩ := foldlM_sum_some h
    rw [h2, waysIn, List.length_cons, length_kidWays, Nat.add_comm]
    congr 2
    refine List.map_congr_left fun c hc => ?_
    obtain ⟨k, e⟩ := Option.isSome_iff_exists.1 (h1 c hc)
    rw [e, ← tnCount_eq σ room c k e]
    rfl

theorem tnLeaves_isSome (σ : TreeStore V) : ∀ (room : Nat) (a : Addr),
    (tnLeaves σ room a).isSome = true ↔ ∀ p, WayDown σ a p → p.length < room
  | 0, a => by simpa [tnLeaves] using no_short (σ := σ) (a := a)
  | room + 1, a => by
    rw [ways_short_succ, tnLeaves]
    by_cases he : (σ a).2 = []
    · simp [he]
    rw [if_neg (by simpa using he)]
    constructor
    · intro h c hc
      exact (tnLeaves_isSome σ room c).1 (foldlM_isSome_of (g := (· + ·)) h c hc)
    · intro h
      exact foldlM_isSome (g := (· + ·)) fun c hc => (tnLeaves_isSome σ room c).2 (h c hc)

theorem tnLeaves_eq (σ : TreeStore V) : ∀ (room : Nat) (a : Addr) (n : Nat), tnLeaves σ room a = some n →
    n = (leafWays σ room a).length
  | 0, a, n, h => by cases h
  | room + 1, a, n, h => by
    rw [tnLeaves] at h
    rw [leafWays]
    by_cases he : (σ a).2 = []
    · simp [he] at h ⊢; exact h.symm
    rw [if_neg (by simpa using he)] at h ⊢
    obtain ⟨h1, h2⟩ := foldlM_sum_some h
    rw [h2, length_kidWays, Nat.zero_add]
    congr 1
    refine List.map_congr_left fun c hc => ?_
    obtain ⟨k, e⟩ := Option.isSome_iff_exists.1 (h1 c hc)
    rw [e, ← tnLeaves_eq σ room c k e]
    rfl

theorem tnHeight_isSome (σ : TreeStore V) : ∀ (room : Nat) (a : Addr),
    (tnHeight σ room a).isSome = true ↔ ∀ p, WayDown σ a p → p.length < room
  | 0, a => by simpa [tnHeight] using no_short (σ := σ) (a := a)
  | room + 1, a => by
    rw [ways_short_succ, tnHeight]
    constructor
    · intro h c hc
      exact (tnHeight_isSome σ room c).1 (foldlM_isSome_of (g := fun m h => max m (1 + h)) h c hc)
    · intro h
      exact foldlM_isSome (g := fun m h => max m (1 + h)) fun c hc => (tnHeight_isSome σ room c).2 (h c hc)

theorem foldlM_max_some {f : Addr → Option Nat} : ∀ {cs : List Addr} {t n : Nat},
    cs.foldlM (fun m c => (f c).map fun h => max m (1 + h)) t = some n →
      t ≤ n ∧ (∀ c ∈ cs, ∃ h, f c = some h ∧ h < n) ∧ (n = t ∨ ∃ c ∈ cs, ∃ h, f c = some h ∧ n = 1 + h)
  | [], t, n, h => by
    simp only [List.foldlM_nil, Option.pure_def, Option.some.injEq] at h
    simp [h]
  | c :: cs, t, n, h => by
    rw [List.foldlM_cons] at h
    cases e : f c with
    | none => simp [e] at h
    | some k =>
      simp only [e, Option.map_some, Option.bind_eq_bind, Option.bind_some] at h
      obtain ⟨h0, h1, h2⟩ := foldlM_max_some h
      refine ⟨by omega, ?_, ?_⟩
      · intro d hd
        rcases List.mem_cons.1 hd with rfl | hd
        · exact ⟨k, e, by omega⟩
        · exact h1 d hd
      · rcases h2 with h2 | ⟨d, hd, h', e', he⟩
        · by_cases hk : 1 + k ≤ t
          · left; omega
          · right; exact ⟨c, List.mem_cons_self, k, e, by omega⟩
        · right; exact ⟨d, List.mem_cons_of_mem _ hd, h', e', he⟩

theorem tnHeight_eq (σ : TreeStore V) : ∀ (room : Nat) (a : Addr) (n : Nat), tnHeight σ room a = some n →
    (∀ p, WayDown σ a p → p.length ≤ n) ∧ ∃ p, WayDown σ a p ∧ p.length = n
  | 0, a, n, h => by cases h
  | room + 1, a, n, h => by
    obtain ⟨_, h1, h2⟩ := foldlM_max_some h
    constructor
    · intro p hp
      cases p with
      | nil => simp
      | cons i p =>
        obtain ⟨c, hc, hp⟩ := wayDown_cons.1 hp
        obtain ⟨k, e, hk⟩ := h1 c (List.mem_of_getElem? hc)
        have := (tnHeight_eq σ room c k e).1 p hp
        simp only [List.length_cons]
        omega
    · rcases h2 with rfl | ⟨c, hc, k, e, rfl⟩
      · exact ⟨[], rfl, rfl⟩
      · obtain ⟨p, hp, hl⟩ := (tnHeight_eq σ room c k e).2
        obtain ⟨i, hi⟩ := List.getElem?_of_mem hc
        exact ⟨i :: p, wayDown_cons.2 ⟨c, hi, hp⟩, by simp [hl]; omega⟩

/-! ## Iterating -/

theorem goDown_append (σ : TreeStore V) : ∀ (p q : List Nat) (a : Addr),
    goDown σ a (p ++ q) = (goDown σ a p).bind fun b => goDown σ b q
  | [], q, a => rfl
  | i :: p, q, a => by
    simp only [List.cons_append, goDown]
    cases (σ a).2[i]? with
    | none => rfl
    | some c => simpa using goDown_append σ p q c

/-- a list of ways lists the ways of `k` steps, and the nodes they lead to are `current` -/
structure LevelOf (σ : TreeStore V) (a : Addr) (k : Nat) (L : List (List Nat)) (current : List Addr) : Prop where
  nodup : L.Nodup
  mem : ∀ p, p ∈ L ↔ WayDown σ a p ∧ p.length = k
  nodes : L.map (goDown σ a) = current.map some

/-- the ways one step further -/
def oneMore (σ : TreeStore V) (a : Addr) (L : List (List Nat)) : List (List Nat) :=
  L.flatMap fun p => match goDown σ a p with
    | none => []
    | some b => (List.range (σ b).2.length).map fun i => p ++ [i]

theorem wayDown_snoc {σ : TreeStore V} {a : Addr} {p : List Nat} {i : Nat} :
    WayDown σ a (p ++ [i]) ↔ ∃ b, goDown σ a p = some b ∧ i < (σ b).2.length := by
  rw [WayDown, goDown_append]
  cases goDown σ a p with
  | none => simp
  | some b =>
    simp only [Option.bind_some, goDown, Option.some.injEq, exists_eq_left']
    simp

theorem LevelOf.next {σ : TreeStore V} {a : Addr} {k : Nat} {L : List (List Nat)} {current : List Addr}
    (h : LevelOf σ a k L current) : LevelOf σ a (k + 1) (oneMore σ a L) (tnLevel σ current).2 := by
  refine ⟨?_, ?_, ?_⟩
  · rw [oneMore, List.nodup_flatMap]
    constructor
    · intro p _
      split
      · exact List.nodup_nil
      · refine List.Nodup.map (fun i j e => ?_) List.nodup_range
        simpa using e
    · refine h.nodup.imp fun {p q} hne x hx hy => hne ?_
      have key : ∀ {r : List Nat}, x ∈ (match goDown σ a r with
          | none => []
          | some b => (List.range (σ b).2.length).map fun i => r ++ [i]) → ∃ i, x = r ++ [i] := by
        intro r hr
        split at hr
        · cases hr
        · obtain ⟨i, _, e⟩ := List.mem_map.1 hr
          exact ⟨i, e.symm⟩
      obtain ⟨i, e1⟩ := key hx
      obtain ⟨j, e2⟩ := key hy
      rw [e1] at e2
      exact (List.append_inj' e2 rfl).1
  · intro p
    rw [oneMore, List.mem_flatMap]
    constructor
    · rintro ⟨q, hq, hp⟩
      obtain ⟨hw, hl⟩ := (h.mem q).1 hq
      split at hp
      · cases hp
      · rename_i b hb
        obtain ⟨i, hi, rfl⟩ := List.mem_map.1 hp
        exact ⟨wayDown_snoc.2 ⟨b, hb, List.mem_range.1 hi⟩, by simp [hl]⟩
    · rintro ⟨hw, hl⟩
      rcases List.eq_nil_or_concat p with rfl | ⟨q, i, rfl⟩
      · simp at hl
      · rw [List.concat_eq_append] at *
        obtain ⟨b, hb, hi⟩ := wayDown_snoc.1 hw
        refine ⟨q, (h.mem q).2 ⟨by rw [WayDown, hb]; rfl, by simpa using hl⟩, ?_⟩
        rw [hb]
        exact List.mem_map.2 ⟨i, List.mem_range.2 hi, rfl⟩
  · have key : ∀ (L : List (List Nat)) (current : List Addr), L.map (goDown σ a) = current.map some →
        (oneMore σ a L).map (goDown σ a) = (tnLevel σ current).2.map some := by
      intro L
      induction L with
      | nil =>
        intro current hc
        cases current with
        | nil => rfl
        | cons b bs => simp at hc
      | cons p L ih =>
        intro current hc
        cases current with
        | nil => simp at hc
        | cons b bs =>
          simp only [List.map_cons, List.cons.injEq] at hc
          simp only [oneMore, List.flatMap_cons, List.map_append, tnLevel, hc.1]
          have := ih bs hc.2
          simp only [oneMore, tnLevel] at this
          rw [this]
          congr 1
          rw [List.map_map]
          refine List.ext_getElem? fun i => ?_
          simp only [List.getElem?_map, Function.comp_def, goDown_append, hc.1, Option.bind_some, goDown]
          by_cases hi : i < (σ b).2.length
          · simp [hi]
          · rw [List.getElem?_eq_none (by simpa using hi), List.getElem?_eq_none (by simpa using hi)]
            rfl
    exact key L current h.nodes

theorem levelOf_zero (σ : TreeStore V) (a : Addr) : LevelOf σ a 0 [[]] [a] := by
  refine ⟨by simp, ?_, rfl⟩
  intro p
  simp only [List.mem_singleton, List.length_eq_zero_iff]
  constructor
  · rintro rfl; exact ⟨rfl, rfl⟩
  · exact fun h => h.2

theorem wayDown_prefix {σ : TreeStore V} {a : Addr} {p q : List Nat} (h : WayDown σ a (p ++ q)) : WayDown σ a p := by
  rw [WayDown, goDown_append] at h
  rw [WayDown]
  cases e : goDown σ a p with
  | none => simp [e] at h
  | some b => rfl

/-- the values yielded in `k` turns of the loop, from level `i` on -/
theorem tnIter_spec {σ : TreeStore V} {a : Addr} : ∀ (k i : Nat) (L : List (List Nat)) (current : List Addr),
    LevelOf σ a i L current → ∃ M : List (List Nat), M.Nodup ∧
      (∀ p, p ∈ M ↔ WayDown σ a p ∧ i ≤ p.length ∧ p.length < i + k) ∧
      M.Pairwise (fun p q => p.length ≤ q.length) ∧
      M.map (fun p => (goDown σ a p).map fun b => (σ b).1) = (tnIter σ k current).1.map some ∧
      ((tnIter σ k current).2 = [] ↔ ∀ p, WayDown σ a p → p.length < i + k)
  | 0, i, L, current, h => by
    refine ⟨[], List.nodup_nil, ?_, List.Pairwise.nil, rfl, ?_⟩
    · intro p; simp
    · rw [tnIter]
      constructor
      · intro hc p hp
        simp only at hc
        subst hc
        have hL : L = [] := by simpa using h.nodes
        by_contra hlen
        have : p.take i ∈ L := (h.mem _).2 ⟨wayDown_prefix (q := p.drop i) (by rwa [List.take_append_drop]), by simp; omega⟩
        rw [hL] at this; cases this
      · intro hall
        have hL : L = [] := by
          rw [List.eq_nil_iff_forall_not_mem]
          intro p hp
          obtain ⟨h1, h2⟩ := (h.mem p).1 hp
          have := hall p h1
          omega
        have := h.nodes
        rw [hL] at this
        simpa using this.symm
  | k + 1, i, L, current, h => by
    rw [tnIter]
    by_cases hc : current = []
    · subst hc
      rw [if_pos (show ([] : List Nat).isEmpty = true from rfl)]
      have hL : L = [] := by simpa using h.nodes
      have hshort : ∀ p, WayDown σ a p → p.length < i := by
        intro p hp
        by_contra hlen
        have : p.take i ∈ L := (h.mem _).2 ⟨wayDown_prefix (q := p.drop i) (by rwa [List.take_append_drop]), by simp; omega⟩
        rw [hL] at this; cases this
      refine ⟨[], List.nodup_nil, ?_, List.Pairwise.nil, rfl, ?_⟩
      · intro p
        simp only [List.not_mem_nil, false_iff, not_and]
        intro hp hi
        have := hshort p hp
        omega
      · simp only [true_iff]
        intro p hp
        have := hshort p hp
        omega
    · rw [if_neg (by simpa using hc)]
      obtain ⟨M, h1, h2, h3, h4, h5⟩ := tnIter_spec k (i + 1) _ _ h.next
      refine ⟨L ++ M, ?_, ?_, ?_, ?_, ?_⟩
      · refine h.nodup.append h1 ?_
        intro p hp hq
        have := ((h.mem p).1 hp).2
        have := ((h2 p).1 hq).2.1
        omega
      · intro p
        rw [List.mem_append, h.mem, h2]
        constructor
        · rintro (⟨hw, hl⟩ | ⟨hw, hl, hl2⟩)
          · exact ⟨hw, by omega, by omega⟩
          · exact ⟨hw, by omega, by omega⟩
        · rintro ⟨hw, hl, hl2⟩
          by_cases e : p.length = i
          · exact .inl ⟨hw, e⟩
          · exact .inr ⟨hw, by omega, by omega⟩
      · rw [List.pairwise_append]
        refine ⟨?_, h3, ?_⟩
        · refine List.pairwise_of_forall_mem_list fun p hp q hq => ?_
          exact Nat.le_of_eq (((h.mem p).1 hp).2.trans ((h.mem q).1 hq).2.symm)
        · intro p hp q hq
          have := ((h.mem p).1 hp).2
          have := ((h2 q).1 hq).2.1
          omega
      · rw [List.map_append, List.map_append, h4]
        congr 1
        have := congrArg (List.map (Option.map fun b => (σ b).1)) h.nodes
        simpa [tnLevel, Function.comp_def] using this
      · rw [h5]
        constructor <;> intro hh p hp <;> have := hh p hp <;> omega

/-! ## Loops -/

/-- no node is below itself -/
def NoLoop (σ : TreeStore V) : Prop := ∀ b q, goDown σ b q = some b → q = []

/-- going round a loop `n` times -/
theorem goDown_round {σ : TreeStore V} {b : Addr} {q : List Nat} (h : goDown σ b q = some b) : ∀ n : Nat,
    goDown σ b (List.replicate n q).flatten = some b
  | 0 => rfl
  | n + 1 => by
    rw [List.replicate_succ, List.flatten_cons, goDown_append, h]
    exact goDown_round h n

theorem long_way {σ : TreeStore V} {a b : Addr} {p q : List Nat} (hp : goDown σ a p = some b)
    (hq : goDown σ b q = some b) (hne : q ≠ []) (n : Nat) : ∃ w, WayDown σ a w ∧ n ≤ w.length := by
  refine ⟨p ++ (List.replicate n q).flatten, ?_, ?_⟩
  · rw [WayDown, goDown_append, hp, Option.bind_some, goDown_round hq]; rfl
  · have : 1 ≤ q.length := List.length_pos_iff.2 hne
    simp only [List.length_append, List.length_flatten, List.map_replicate, List.sum_replicate, Nat.nsmul_eq_mul]
    have := Nat.mul_le_mul_left n this
    omega

/-- a way without loops is shorter than the number of nodes that can be reached -/
theorem way_short {σ : TreeStore V} {a : Addr} {D : List Addr} (hD : ∀ p b, goDown σ a p = some b → b ∈ D)
    (hl : ∀ b p q, goDown σ a p = some b → goDown σ b q = some b → q = []) (p : List Nat) (hp : WayDown σ a p) :
    p.length < D.length := by
  by_contra hlen
  have at_ : ∀ i, ∃ b, goDown σ a (p.take i) = some b := by
    intro i
    have : WayDown σ a (p.take i) := wayDown_prefix (q := p.drop i) (by rwa [List.take_append_drop])
    exact Option.isSome_iff_exists.1 this
  have hnd : ((List.range (p.length + 1)).map fun i => goDown σ a (p.take i)).Nodup := by
    rw [List.nodup_map_iff_inj_on List.nodup_range]
    have key : ∀ i j, i ≤ j → j ≤ p.length → goDown σ a (p.take i) = goDown σ a (p.take j) → i = j := by
      intro i j hij hj e
      obtain ⟨b, hb⟩ := at_ i
      have hs : p.take j = p.take i ++ (p.drop i).take (j - i) := by
        have := List.take_add (l := p) (i := i) (j := j - i)
        rwa [Nat.add_sub_cancel' hij] at this
      rw [hb, hs, goDown_append, hb, Option.bind_some] at e
      have := congrArg List.length (hl b _ _ hb e.symm)
      simp at this
      omega
    intro i hi j hj e
    rw [List.mem_range] at hi hj
    rcases Nat.le_total i j with h | h
    · exact key i j h (by omega) e
    · exact (key j i h (by omega) e.symm).symm
  have hsub : ((List.range (p.length + 1)).map fun i => goDown σ a (p.take i)) ⊆ D.map some := by
    intro o ho
    obtain ⟨i, _, rfl⟩ := List.mem_map.1 ho
    obtain ⟨b, hb⟩ := at_ i
    rw [hb]
    exact List.mem_map.2 ⟨b, hD _ _ hb, rfl⟩
  have := (List.subperm_of_subset hnd hsub).length_le
  simp at this
  omega

/-! ## A new child -/

/-- the store after `a.set_child(c)` -/
def withChild (σ : TreeStore V) (a c : Addr) : TreeStore V := upd σ a ((σ a).1, (σ a).2 ++ [c])

theorem withChild_children (σ : TreeStore V) (a c x : Addr) (i : Nat) : (withChild σ a c x).2[i]? =
    if x = a ∧ i = (σ a).2.length then some c else (σ x).2[i]? := by
  by_cases hx : x = a
  · subst hx
    simp only [withChild, upd, if_true, true_and]
    by_cases hi : i = (σ x).2.length
    · subst hi; simp
    · rw [if_neg hi, List.getElem?_append]
      split
      · rfl
      · rw [List.getElem?_eq_none (l := (σ x).2) (by omega), List.getElem?_eq_none]
        simp; omega
  · simp [withChild, upd, hx]

theorem goDown_withChild (σ : TreeStore V) (a c : Addr) : ∀ (p : List Nat) (x y : Addr), goDown σ x p = some y →
    goDown (withChild σ a c) x p = some y
  | [], x, y, h => h
  | i :: p, x, y, h => by
    obtain ⟨d, hd, h⟩ := goDown_cons_some.1 h
    refine goDown_cons_some.2 ⟨d, ?_, goDown_withChild σ a c p d y h⟩
    rw [withChild_children, if_neg, hd]
    rintro ⟨rfl, rfl⟩
    simp at hd

/-- a way in the new store is an old one, or goes through the new child once -/
theorem goDown_withChild_cases {σ : TreeStore V} {a c : Addr} (hno : ∀ q, goDown σ c q ≠ some a) :
    ∀ (p : List Nat) (x y : Addr), goDown (withChild σ a c) x p = some y →
      goDown σ x p = some y ∨ ∃ p1 p2, p = p1 ++ (σ a).2.length :: p2 ∧ goDown σ x p1 = some a ∧ goDown σ c p2 = some y
  | [], x, y, h => .inl h
  | i :: p, x, y, h => by
    obtain ⟨d, hd, h⟩ := goDown_cons_some.1 h
    rw [withChild_children] at hd
    have ih := goDown_withChild_cases hno p d y h
    by_cases hx : x = a ∧ i = (σ a).2.length
    · rw [if_pos hx] at hd
      cases hd
      obtain ⟨rfl, rfl⟩ := hx
      rcases ih with h1 | ⟨p1, p2, rfl, h1, h2⟩
      · exact .inr ⟨[], p, rfl, rfl, h1⟩
      · exact absurd h1 (hno p1)
    · rw [if_neg hx] at hd
      rcases ih with h1 | ⟨p1, p2, rfl, h1, h2⟩
      · exact .inl (goDown_cons_some.2 ⟨d, hd, h1⟩)
      · exact .inr ⟨i :: p1, p2, rfl, goDown_cons_some.2 ⟨d, hd, h1⟩, h2⟩

theorem noLoop_withChild {σ : TreeStore V} (h : NoLoop σ) (a c : Addr) :
    NoLoop (withChild σ a c) ↔ ∀ q, goDown σ c q ≠ some a := by
  constructor
  · intro hn q hq
    have : goDown (withChild σ a c) a ((σ a).2.length :: q) = some a := by
      refine goDown_cons_some.2 ⟨c, ?_, goDown_withChild σ a c q c a hq⟩
      rw [withChild_children, if_pos ⟨rfl, rfl⟩]
    cases hn a _ this
  · intro hno b q hq
    rcases goDown_withChild_cases hno q b b hq with h1 | ⟨p1, p2, rfl, h1, h2⟩
    · exact h b q h1
    · exact absurd (by rw [goDown_append, h2]; exact h1) (hno (p2 ++ p1))

end Extra
