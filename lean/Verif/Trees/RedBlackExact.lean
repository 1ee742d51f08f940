import Verif.Trees.RedBlackProofs

/-!
# When `insert` of a red-black tree loses the colour invariants

For C55.  `LosesAt` is the specification; the rest are lemmas.
-/

namespace Extra
variable {N : Type} [LinearOrder N]

/-! ## The specification -/

/-- the way to the node of `v`, or to the place where it is missing -/
def wayTo (v : N) : BTree (N × Color) → List Bool
  | .nil => []
  | .node l w r => if v < w.1 then false :: wayTo v l else if w.1 < v then true :: wayTo v r else []

/-- the place beside the way `p` below its first `k` steps -/
def aside (p : List Bool) (k : Nat) : List Bool := p.take k ++ [!p.getD k false]

/-- the node at a place is there and red -/
def RedAt (t : BTree (N × Color)) (p : List Bool) : Prop := ∃ x, t.at p = some (x, .red)

/-- A place `k` steps down the way to `v`, an even number of steps above its end, such that every other
node below it on the way is red, up to the end; the way turns at the child of the place; the other child
of the place is not red; and one of two: two steps further the way ends at the node of `v`, or two steps
further it goes on and the node beside it is not red. -/
def LosesAt (v : N) (t : BTree (N × Color)) : Prop :=
  ∃ k m, (wayTo v t).length = k + 2 * (m + 1) ∧
    (∀ j, j ≤ m → RedAt t ((wayTo v t).take (k + 1 + 2 * j))) ∧
    (wayTo v t)[k]? ≠ (wayTo v t)[k + 1]? ∧
    ¬ RedAt t (aside (wayTo v t) k) ∧
    ((m = 0 ∧ t.at (wayTo v t) ≠ none) ∨ (0 < m ∧ ¬ RedAt t (aside (wayTo v t) (k + 2))))

/-! ## Black nodes only -/

/-- every path has `n` black nodes -/
def blI : BTree (N × Color) → Nat → Prop
  | .nil, n => n = 0
  | .node l w r, n => ∃ m, n = m + w.2.bl ∧ blI l m ∧ blI r m

omit [LinearOrder N] in
theorem rbI_blI {t : BTree (N × Color)} : ∀ {n}, rbI t n → blI t n := by
  induction t with
  | nil => exact fun h => h
  | node l w r ihl ihr =>
    rintro n ⟨m, h1, h2, h3, -⟩
    exact ⟨m, h1, ihl h2, ihr h3⟩

omit [LinearOrder N] in
theorem blI_unique {t : BTree (N × Color)} : ∀ {n m}, blI t n → blI t m → n = m := by
  induction t with
  | nil => intro n m h1 h2; exact h1.trans h2.symm
  | node l w r ihl ihr =>
    rintro n m ⟨a, h1, h2, -⟩ ⟨b, k1, k2, -⟩
    rw [h1, k1, ihl h2 k2]

/-- equally many black nodes on all paths -/
theorem blI_blacks (t : BTree (N × Color)) (n : Nat) (h : ∀ p, MissingAt t p → blacksOn t p = n) :
    blI t n := by
  induction t generalizing n with
  | nil => exact (h [] ⟨rfl, by simp⟩).symm
  | node l w r ihl ihr =>
    obtain ⟨p, hp⟩ := exists_missing l
    have key : ∀ b q, MissingAt (if b = true then r else l) q →
        (if w.2 = .black then 1 else 0) + blacksOn (if b = true then r else l) q = n := by
      intro b q hq
      have := h (b :: q) ((missing_node l w r _).2 ⟨b, q, rfl, hq⟩)
      cases b <;> simpa [blacksOn] using this
    have hn : n = blacksOn l p + w.2.bl := by
      rw [← key false p (by simpa using hp)]
      obtain ⟨x, c⟩ := w
      cases c <;> simp [Color.bl]; omega
    refine ⟨blacksOn l p, hn, ihl _ fun q hq => ?_, ihr _ fun q hq => ?_⟩
    · have h1 := key false q (by simpa using hq)
      have h2 := key false p (by simpa using hp)
      simp at h1 h2; omega
    · have h1 := key true q (by simpa using hq)
      have h2 := key false p (by simpa using hp)
      simp at h1 h2; omega

omit [LinearOrder N] in
theorem plug_blI : ∀ (fs : List (Above N Color)) (s : BTree (N × Color)) {n : Nat}, blI (plug s fs) n →
    ∃ m, blI s m
  | [], s, n, h => ⟨n, h⟩
  | f :: fs, s, n, h => by
    obtain ⟨m, h⟩ := plug_blI fs _ h
    cases hf : f.left <;> rw [hf] at h
    · obtain ⟨k, -, -, h⟩ := h; exact ⟨k, h⟩
    · obtain ⟨k, -, h, -⟩ := h; exact ⟨k, h⟩

/-- what the colours miss once they miss for good -/
theorem recolor_blI : ∀ (fs : List (Above N Color)) (a : BTree (N × Color)) (x b) (t) (n : Nat),
    rbRecolor a x b fs = .ok t → blI t n → ∃ m, blI (.node a x b) m
  | [], a, x, b, t, n, e, h => by cases e; exact ⟨n, h⟩
  | [f], a, x, b, t, n, e, h => by cases e; exact plug_blI [f] _ h
  | f :: g :: fs, a, x, b, t, n, e, h => by
    rw [rbRecolor] at e
    by_cases hb : f.w.2 = .black
    · rw [if_pos hb] at e
      cases e
      exact plug_blI _ _ h
    have hr : f.w.2 = .red := by cases hc : f.w.2 <;> simp_all
    rw [if_neg hb] at e
    by_cases s1 : sideOk g f.w.1 = false
    · rw [if_pos s1] at e; cases e
    rw [if_neg s1] at e
    by_cases hu : g.other.isRed = true
    · rw [if_pos hu] at e
      cases hgl : g.left <;> cases hfl : f.left <;> rw [hgl, hfl] at e <;>
        obtain ⟨m, k, -, h1, h2⟩ := recolor_blI fs _ _ _ t n e h
      · obtain ⟨j, -, -, h3⟩ := h2; exact ⟨j, h3⟩
      · obtain ⟨j, -, h3, -⟩ := h2; exact ⟨j, h3⟩
      · obtain ⟨j, -, -, h3⟩ := h1; exact ⟨j, h3⟩
      · obtain ⟨j, -, h3, -⟩ := h1; exact ⟨j, h3⟩
    · rw [if_neg hu] at e
      by_cases s2 : sideOk f x.1 = false
      · rw [if_pos s2] at e; cases e
      rw [if_neg s2] at e
      cases hgl : g.left <;> cases hfl : f.left <;> rw [hgl, hfl] at e <;> simp only at e <;>
        split_ifs at e <;>
        obtain ⟨m, k, -, h1, h2⟩ := recolor_blI fs _ _ _ t n e h
      · exact ⟨k, h2⟩
      · obtain ⟨i, hi, -, ha⟩ := h1
        obtain ⟨j, hj, hb', -⟩ := h2
        rw [hr] at hj
        simp only [Color.bl, Nat.add_zero] at hi hj
        subst hi; subst hj
        exact ⟨_, _, rfl, ha, hb'⟩
      · obtain ⟨i, hi, -, ha⟩ := h1
        obtain ⟨j, hj, hb', -⟩ := h2
        rw [hr] at hi
        simp only [Color.bl, Nat.add_zero] at hi hj
        subst hi; subst hj
        exact ⟨_, _, rfl, ha, hb'⟩
      · exact ⟨k, h1⟩

/-! ## The way up -/

/-- `__recolor` comes to a rotation of the second kind with a black node -/
def BadUp : Color → List (Above N Color) → Prop
  | c, f :: g :: fs => f.w.2 = .red ∧
      ((g.other.isRed = true ∧ BadUp .red fs) ∨
       (g.other.isRed = false ∧ ((c = .black ∧ f.left ≠ g.left) ∨ BadUp .black fs)))
  | _, _ => False

/-- a tree keeps the invariants, or if `B` the paths differ in the number of black nodes -/
def KeepsUnless (t : BTree (N × Color)) (B : Prop) : Prop :=
  (¬ B → ∃ m, rbI t m) ∧ (B → ∀ m, ¬ blI t m)

theorem recolor_iff : ∀ (fs : List (Above N Color)) (a : BTree (N × Color)) (x b) (n : Nat) (t),
    rbI (.node a x b) n → ctxOk fs n → rbRecolor a x b fs = .ok t → KeepsUnless t (BadUp x.2 fs)
  | [], a, x, b, n, t, h, _, e => by
    cases e; exact ⟨fun _ => ⟨n, h⟩, fun h => by simp [BadUp] at h⟩
  | [f], a, x, b, n, t, h, hc, e => by
    cases e
    refine ⟨fun _ => plug_rb [f] _ n h hc fun _ => .inr ⟨f, [], rfl, ?_⟩, fun h => by simp [BadUp] at h⟩
    by_contra hr
    obtain ⟨g, gs, e, -⟩ := (hc.2.1 (by cases hc : f.w.2 <;> simp_all)).2
    cases e
  | f :: g :: fs, a, x, b, n, t, h, ⟨c1, c2, c3, c4, c5⟩, e => by
    rw [rbRecolor] at e
    by_cases hb : f.w.2 = .black
    · rw [if_pos hb] at e
      cases e
      refine ⟨fun _ => ?_, fun h => by simp [BadUp, hb] at h⟩
      exact plug_rb (f :: g :: fs) _ n h ⟨c1, c2, c3, c4, c5⟩ fun _ => .inr ⟨f, _, rfl, hb⟩
    have hr : f.w.2 = .red := by cases hc : f.w.2 <;> simp_all
    obtain ⟨hfo, g', gs', e', hgb⟩ := c2 hr
    cases e'
    have hbl : n + f.w.2.bl = n := by rw [hr]; rfl
    rw [hbl] at c3 c5
    rw [hgb] at c5
    have c5' : ctxOk fs (n + 1) := c5
    rw [if_neg hb] at e
    by_cases s1 : sideOk g f.w.1 = false
    · rw [if_pos s1] at e; cases e
    rw [if_neg s1] at e
    by_cases hu : g.other.isRed = true
    · -- case II
      rw [if_pos hu] at e
      have hP : rbI (.node (.node a x b) (f.w.1, .black) f.other) (n + 1) := ⟨n, rfl, h, c1, by simp⟩
      have hP' : rbI (.node f.other (f.w.1, .black) (.node a x b)) (n + 1) := ⟨n, rfl, c1, h, by simp⟩
      have hU := blacken_rbI_red c3 hu
      have k : ∀ a' b', rbI a' (n + 1) → rbI b' (n + 1) → a'.isRed = false → b'.isRed = false →
          rbRecolor a' (g.w.1, .red) b' fs = .ok t → KeepsUnless t (BadUp x.2 (f :: g :: fs)) := by
        intro a' b' ha hb ra rb e
        have := recolor_iff fs a' _ b' (n + 1) t ⟨n + 1, rfl, ha, hb, fun _ => ⟨ra, rb⟩⟩ c5' e
        rw [BadUp]
        simpa [hr, hu] using this
      cases hgl : g.left <;> cases hfl : f.left <;> rw [hgl, hfl] at e
      · exact k _ _ hU hP' (by simp) rfl e
      · exact k _ _ hU hP (by simp) rfl e
      · exact k _ _ hP' hU rfl (by simp) e
      · exact k _ _ hP hU rfl (by simp) e
    · -- case III
      rw [if_neg hu] at e
      by_cases s2 : sideOk f x.1 = false
      · rw [if_pos s2] at e; cases e
      rw [if_neg s2] at e
      have hu' : g.other.isRed = false := by simpa using hu
      have k : ∀ a' y b', ¬ (x.2 = .black ∧ f.left ≠ g.left) → rbI a' n → rbI b' n →
          rbRecolor a' (y, .black) b' fs = .ok t → KeepsUnless t (BadUp x.2 (f :: g :: fs)) := by
        intro a' y b' hx ha hb e
        have := recolor_iff fs a' _ b' (n + 1) t ⟨n, rfl, ha, hb, by simp⟩ c5' e
        rw [BadUp]
        simpa only [hr, hu', hx, true_and, false_or, Bool.false_eq_true, false_and] using this
      -- a black node in the middle
      have lost : ∀ a' y b', x.2 = .black → f.left ≠ g.left →
          rbRecolor a' (y, .black) b' fs = .ok t → (∀ j, blI a' j → blI b' j → False) →
          KeepsUnless t (BadUp x.2 (f :: g :: fs)) := by
        intro a' y b' hx hne e hno
        refine ⟨fun hc => absurd ?_ hc, fun _ m hm => ?_⟩
        rotate_left
        · obtain ⟨_, j, -, h1, h2⟩ := recolor_blI fs _ _ _ t m e hm
          exact (hno j h1 h2).elim
        · rw [BadUp]
          exact ⟨hr, .inr ⟨hu', .inl ⟨hx, hne⟩⟩⟩
      obtain ⟨m, hm, ha, hb', hab⟩ := h
      have hc1 := rbI_blI c1
      have hc3 := rbI_blI c3
      have hA := rbI_blI ha
      have hB := rbI_blI hb'
      cases hgl : g.left <;> cases hfl : f.left <;> rw [hgl, hfl] at e <;> simp only at e <;>
        split_ifs at e
      · refine k _ _ _ (by simp [hgl, hfl]) ?_ ?_ e
        · exact ⟨n, rfl, c3, c1, fun _ => ⟨hu', hfo⟩⟩
        · exact ⟨m, hm, ha, hb', hab⟩
      · cases hx : x.2 with
        | black =>
          rw [← hx]
          refine lost _ _ _ hx (by simp [hgl, hfl]) e ?_
          rintro j ⟨i, -, k1, k2⟩ -
          have e1 := blI_unique k1 hc3
          have e2 := blI_unique k2 hA
          rw [hx] at hm
          simp only [Color.bl] at hm
          omega
        | red =>
          have hmn : m = n := by rw [hm, hx]; rfl
          subst hmn
          rw [← hx]
          refine k _ _ _ (by simp [hx]) ?_ ?_ e
          · exact ⟨_, rfl, c3, ha, fun _ => ⟨hu', (hab hx).1⟩⟩
          · exact ⟨_, by rw [hr]; rfl, hb', c1, fun _ => ⟨(hab hx).2, hfo⟩⟩
      · cases hx : x.2 with
        | black =>
          rw [← hx]
          refine lost _ _ _ hx (by simp [hgl, hfl]) e ?_
          rintro j ⟨i, -, k1, k2⟩ -
          have e1 := blI_unique k1 hc1
          have e2 := blI_unique k2 hA
          rw [hx] at hm
          simp only [Color.bl] at hm
          omega
        | red =>
          have hmn : m = n := by rw [hm, hx]; rfl
          subst hmn
          rw [← hx]
          refine k _ _ _ (by simp [hx]) ?_ ?_ e
          · exact ⟨_, by rw [hr]; rfl, c1, ha, fun _ => ⟨hfo, (hab hx).1⟩⟩
          · exact ⟨_, rfl, hb', c3, fun _ => ⟨(hab hx).2, hu'⟩⟩
      · refine k _ _ _ (by simp [hgl, hfl]) ?_ ?_ e
        · exact ⟨m, hm, ha, hb', hab⟩
        · exact ⟨n, rfl, c1, c3, fun _ => ⟨hfo, hu'⟩⟩

omit [LinearOrder N] in
/-- the same, said with the places in the list -/
theorem badUp_iff : ∀ (fs : List (Above N Color)) (c : Color), BadUp c fs ↔
    ∃ m, (∀ j ≤ m, ∃ f, fs[2 * j]? = some f ∧ f.w.2 = .red) ∧
      (∃ f g, fs[2 * m]? = some f ∧ fs[2 * m + 1]? = some g ∧ f.left ≠ g.left ∧ g.other.isRed = false) ∧
      ((m = 0 ∧ c = .black) ∨ ∃ m' g, m = m' + 1 ∧ fs[2 * m' + 1]? = some g ∧ g.other.isRed = false)
  | [], c => by simp [BadUp]
  | [f], c => by
    simp only [BadUp, false_iff]
    rintro ⟨m, -, ⟨f, g, -, h, -⟩, -⟩
    simp at h
  | f :: g :: fs, c => by
    have idx : ∀ j, (f :: g :: fs)[2 * (j + 1)]? = fs[2 * j]? := fun j => by
      rw [show 2 * (j + 1) = 2 * j + 1 + 1 by ring]; simp
    have idx' : ∀ j, (f :: g :: fs)[2 * (j + 1) + 1]? = fs[2 * j + 1]? := fun j => by
      rw [show 2 * (j + 1) + 1 = 2 * j + 1 + 1 + 1 by ring]; simp
    rw [BadUp, badUp_iff fs .red, badUp_iff fs .black]
    constructor
    · rintro ⟨hr, ⟨hu, m, h1, h2, h3⟩ | ⟨hu, ⟨hc, hne⟩ | ⟨m, h1, h2, h3⟩⟩⟩
      · refine ⟨m + 1, ?_, by rw [idx, idx']; exact h2, .inr ?_⟩
        · rintro (_ | j) hj
          · exact ⟨f, rfl, hr⟩
          · rw [idx]; exact h1 j (by omega)
        · rcases h3 with ⟨-, h⟩ | ⟨m', g', rfl, h⟩
          · cases h
          · exact ⟨m' + 1, g', rfl, by rw [idx']; exact h⟩
      · exact ⟨0, fun j hj => ⟨f, by rw [Nat.le_zero.1 hj]; rfl, hr⟩, ⟨f, g, rfl, rfl, hne, hu⟩, .inl ⟨rfl, hc⟩⟩
      · refine ⟨m + 1, ?_, by rw [idx, idx']; exact h2, .inr ?_⟩
        · rintro (_ | j) hj
          · exact ⟨f, rfl, hr⟩
          · rw [idx]; exact h1 j (by omega)
        · rcases h3 with ⟨rfl, -⟩ | ⟨m', g', rfl, h⟩
          · exact ⟨0, g, rfl, rfl, hu⟩
          · exact ⟨m' + 1, g', rfl, by rw [idx']; exact h⟩
    · rintro ⟨m, h1, h2, h3⟩
      have hr : f.w.2 = .red := by
        obtain ⟨f', e, h⟩ := h1 0 (Nat.zero_le _)
        cases e; exact h
      refine ⟨hr, ?_⟩
      cases m with
      | zero =>
        obtain ⟨f', g', e1, e2, hne, hu⟩ := h2
        cases e1; cases e2
        rcases h3 with ⟨-, h⟩ | ⟨m', _, h, -⟩
        · exact .inr ⟨hu, .inl ⟨h, hne⟩⟩
        · omega
      | succ m =>
        rw [idx, idx'] at h2
        have h1' : ∀ j ≤ m, ∃ f, fs[2 * j]? = some f ∧ f.w.2 = .red := fun j hj => by
          rw [← idx]; exact h1 (j + 1) (by omega)
        rcases h3 with ⟨h, -⟩ | ⟨m', g', hm, h, hg⟩
        · omega
        obtain rfl : m = m' := by omega
        cases m with
        | zero =>
          cases h
          exact .inr ⟨hg, .inr ⟨0, h1', h2, .inl ⟨rfl, rfl⟩⟩⟩
        | succ m =>
          rw [idx'] at h
          have h4 : ∃ m' g, m + 1 = m' + 1 ∧ fs[2 * m' + 1]? = some g ∧ g.other.isRed = false :=
            ⟨m, g', rfl, h, hg⟩
          by_cases hu : g.other.isRed = true
          · exact .inl ⟨hu, _, h1', h2, .inr h4⟩
          · exact .inr ⟨by simpa using hu, .inr ⟨_, h1', h2, .inr h4⟩⟩

/-! ## The nodes above, from the top -/

theorem wayTo_eq (v : N) (t : BTree (N × Color)) : wayTo v t = t.insertPath v := by
  induction t with
  | nil => rfl
  | node l w r ihl ihr =>
    rw [wayTo, BTree.insertPath, ihl, ihr]
    rcases lt_trichotomy v w.1 with h | h | h
    · rw [if_pos h, if_neg (ne_of_lt h), if_pos h]
    · subst h; simp
    · rw [if_neg (lt_asymm h), if_pos h, if_neg (ne_of_gt h), if_neg (lt_asymm h)]

theorem above_down (v : N) (t : BTree (N × Color)) : (t.above (wayTo v t)).length = (wayTo v t).length ∧
    ∀ i, i < (wayTo v t).length → ∃ f, (t.above (wayTo v t)).reverse[i]? = some f ∧
      (wayTo v t)[i]? = some (!f.left) ∧ t.at ((wayTo v t).take i) = some f.w ∧
      t.sub (aside (wayTo v t) i) = f.other := by
  induction t with
  | nil => simp [wayTo, BTree.above]
  | node l w r ihl ihr =>
    rw [wayTo]
    split_ifs with h1 h2
    · refine ⟨by simp [BTree.above, ihl.1], fun i hi => ?_⟩
      cases i with
      | zero => exact ⟨⟨true, w, r⟩, by simp [BTree.above], by simp, by simp [BTree.at, BTree.sub, BTree.root?],
          by simp [aside, BTree.sub]⟩
      | succ i =>
        obtain ⟨f, e1, e2, e3, e4⟩ := ihl.2 i (by simpa using hi)
        exact ⟨f, by simpa [BTree.above] using e1, by simpa using e2,
          by simpa [BTree.at, BTree.sub] using e3, by simpa [aside, BTree.sub] using e4⟩
    · refine ⟨by simp [BTree.above, ihr.1], fun i hi => ?_⟩
      cases i with
      | zero => exact ⟨⟨false, w, l⟩, by simp [BTree.above], by simp, by simp [BTree.at, BTree.sub, BTree.root?],
          by simp [aside, BTree.sub]⟩
      | succ i =>
        obtain ⟨f, e1, e2, e3, e4⟩ := ihr.2 i (by simpa using hi)
        exact ⟨f, by simpa [BTree.above] using e1, by simpa using e2,
          by simpa [BTree.at, BTree.sub] using e3, by simpa [aside, BTree.sub] using e4⟩
    · simp [BTree.above]

theorem redAt_iff {t : BTree (N × Color)} {p : List Bool} : RedAt t p ↔ (t.sub p).isRed = true := by
  rw [RedAt, BTree.at]
  cases t.sub p with
  | nil => simp [BTree.root?]
  | node l w r =>
    obtain ⟨x, c⟩ := w
    rw [isRed_node]
    simp [BTree.root?]

theorem losesAt_iff (v : N) (t : BTree (N × Color)) (c : Color)
    (hc : ∀ q b, wayTo v t = q ++ [b] → RedAt t q → (c = .black ↔ t.at (wayTo v t) ≠ none)) :
    LosesAt v t ↔ BadUp c (t.above (wayTo v t)) := by
  obtain ⟨hlen, hfr⟩ := above_down v t
  rw [badUp_iff]
  set p := wayTo v t with hp
  set A := t.above p with hA
  -- a node above by its distance from the root
  have fr : ∀ i j, i + j + 1 = p.length → ∃ f, A[j]? = some f ∧ p[i]? = some (!f.left) ∧
      t.at (p.take i) = some f.w ∧ t.sub (aside p i) = f.other := by
    intro i j hij
    obtain ⟨f, e, h⟩ := hfr i (by omega)
    refine ⟨f, ?_, h⟩
    rw [List.getElem?_reverse (by omega)] at e
    rw [← e]
    congr 1
    omega
  have red : ∀ i j f, i + j + 1 = p.length → A[j]? = some f → (RedAt t (p.take i) ↔ f.w.2 = .red) := by
    intro i j f hij hf
    obtain ⟨f', e, -, h, -⟩ := fr i j hij
    rw [hf] at e
    cases e
    rw [RedAt, h]
    generalize f.w = z
    obtain ⟨x, c'⟩ := z
    simp
  have red' : ∀ i j f, i + j + 1 = p.length → A[j]? = some f →
      (¬ RedAt t (aside p i) ↔ f.other.isRed = false) := by
    intro i j f hij hf
    obtain ⟨f', e, -, -, h⟩ := fr i j hij
    rw [hf] at e
    cases e
    rw [redAt_iff, h]
    simp
  have side : ∀ i j f, i + j + 1 = p.length → A[j]? = some f → p[i]? = some (!f.left) := by
    intro i j f hij hf
    obtain ⟨f', e, h, -⟩ := fr i j hij
    rw [hf] at e
    cases e
    exact h
  constructor
  · rintro ⟨k, m, hl, h1, h2, h3, h4⟩
    rw [← hp] at hl h1 h2 h3 h4
    obtain ⟨f, ef, -⟩ := fr (k + 1) (2 * m) (by omega)
    obtain ⟨g, eg, -⟩ := fr k (2 * m + 1) (by omega)
    have hreds : ∀ j ≤ m, ∃ f, A[2 * j]? = some f ∧ f.w.2 = .red := by
      intro j hj
      obtain ⟨f, ef, -⟩ := fr (k + 1 + 2 * (m - j)) (2 * j) (by omega)
      exact ⟨f, ef, (red _ _ f (by omega) ef).1 (h1 (m - j) (by omega))⟩
    refine ⟨m, hreds, ⟨f, g, ef, eg, ?_, (red' k _ g (by omega) eg).1 h3⟩, ?_⟩
    · rw [side (k + 1) _ f (by omega) ef, side k _ g (by omega) eg] at h2
      rintro h
      exact h2 (by rw [h])
    · rcases h4 with ⟨rfl, h⟩ | ⟨hm, h⟩
      · refine .inl ⟨rfl, ?_⟩
        have hq : p = p.take (k + 1) ++ [p[k + 1]'(by omega)] := by
          rw [List.take_append_getElem, List.take_of_length_le (by omega)]
        exact (hc _ _ hq (by simpa using h1 0 le_rfl)).2 h
      · obtain ⟨m', rfl⟩ : ∃ m', m = m' + 1 := ⟨m - 1, by omega⟩
        obtain ⟨g', eg', -⟩ := fr (k + 2) (2 * m' + 1) (by omega)
        exact .inr ⟨m', g', rfl, eg', (red' _ _ g' (by omega) eg').1 h⟩
  · rintro ⟨m, h1, ⟨f, g, ef, eg, hne, hu⟩, h4⟩
    have hm : 2 * m + 1 < A.length := (List.getElem?_eq_some_iff.1 eg).1
    obtain ⟨k, hk⟩ : ∃ k, p.length = k + 2 * (m + 1) := ⟨p.length - 2 * (m + 1), by omega⟩
    have hreds : ∀ j, j ≤ m → RedAt t (p.take (k + 1 + 2 * j)) := by
      intro j hj
      obtain ⟨f, ef, hf⟩ := h1 (m - j) (by omega)
      exact (red _ _ f (by omega) ef).2 hf
    refine ⟨k, m, hk, hreds, ?_, (red' k _ g (by omega) eg).2 hu, ?_⟩
    · rw [← hp, side (k + 1) _ f (by omega) ef, side k _ g (by omega) eg]
      intro h
      apply hne
      have := Option.some.inj h
      cases hf : f.left <;> cases hg : g.left <;> simp_all
    · rcases h4 with ⟨rfl, h⟩ | ⟨m', g', rfl, eg', h⟩
      · refine .inl ⟨rfl, ?_⟩
        have hq : p = p.take (k + 1) ++ [p[k + 1]'(by omega)] := by
          rw [List.take_append_getElem, List.take_of_length_le (by omega)]
        exact (hc _ _ hq (by simpa using hreds 0 le_rfl)).1 h
      · exact .inr ⟨by omega, (red' _ _ g' (by omega) eg').2 h⟩

/-! ## Insertion -/

omit [LinearOrder N] in
theorem blacken_blI {t : BTree (N × Color)} {n} (h : blI t.blacken n) : ∃ m, blI t m := by
  cases t with
  | nil => exact ⟨n, h⟩
  | node l w r =>
    obtain ⟨m, -, hl, hr⟩ := h
    exact ⟨m + w.2.bl, m, rfl, hl, hr⟩

theorem rbInsert_iff (t : Bst N Color) (v : N) (hs : t.root.keys.Pairwise (· < ·))
    (hr : t.root.isRed = false) (hn : ∃ n, rbI t.root n) :
    ∃ t', rbInsertNum t v = .ok (t', !(t.root.insertNode (v, .red)).2) ∧ t'.root.isRed = false ∧
      KeepsUnless t'.root (LosesAt v t.root) := by
  obtain ⟨t, k⟩ := t
  cases t with
  | nil =>
    refine ⟨⟨.node .nil (v, .black) .nil, k + 1⟩, rfl, rfl, fun _ => ⟨1, 0, rfl, rfl, rfl, by simp⟩, ?_⟩
    rintro ⟨k, m, h, -⟩
    simp [wayTo] at h
  | node l w r =>
    simp only at hs hr hn
    set T := BTree.node l w r with hT
    obtain ⟨a, y, b, hw⟩ := insertPath_walk v Color.red T
    have hplug := plug_above (T.insertNode (v, .red)).1 (T.insertPath v) (by rw [hw]; simp)
    have hso := insertNode_sorted (v, .red) T hs
    rw [hw] at hplug
    obtain ⟨t', e, hk⟩ := recolor_ok ((T.insertNode (v, .red)).1.above (T.insertPath v)) a (v, y) b
      (by rw [hplug]; exact hso)
    refine ⟨⟨t'.blacken, if (T.insertNode (v, .red)).2 then k + 1 else k⟩, ?_, by simp, ?_⟩
    · rw [rbInsertNum]
      simp only [hT] at hw e ⊢
      simp only [descend_eq, hw, List.append_nil, e, bind, Except.bind, pure, Except.pure]
    · simp only
      obtain ⟨n, hn⟩ := hn
      obtain ⟨m, hm, hctx, hhb⟩ := descend_rb T (T.insertPath v) [] n hn trivial (by simp [hr])
      rw [List.append_nil] at hctx hhb
      have hab := insert_above (v, .red) T
      have hwk := insert_walk (v, .red) T
      simp only at hab hwk
      rw [hab] at e
      rw [hw] at hwk
      have hmain : ∃ m, rbI (.node a (v, y) b) m ∧ ctxOk (T.above (T.insertPath v)) m ∧
          (∀ q b, wayTo v T = q ++ [b] → RedAt T q → (y = .black ↔ T.at (wayTo v T) ≠ none)) := by
        rw [wayTo_eq, BTree.at, ← walk_eq_sub]
        cases hcur : T.walk (T.insertPath v) with
        | nil =>
          rw [hcur] at hwk hm
          simp only [BTree.node.injEq, Prod.mk.injEq] at hwk
          obtain ⟨rfl, ⟨-, rfl⟩, rfl⟩ := hwk
          exact ⟨m, ⟨m, rfl, hm, hm, by simp⟩, hctx, fun _ _ _ _ => by simp [BTree.root?]⟩
        | node a' z b' =>
          rw [hcur] at hwk hm hhb
          simp only [BTree.node.injEq] at hwk
          obtain ⟨rfl, rfl, rfl⟩ := hwk
          refine ⟨m, hm, hctx, fun q b hq hred => ?_⟩
          simp only [BTree.root?, ne_eq, reduceCtorEq, not_false_eq_true, iff_true]
          by_contra hy
          have hy : y = .red := by cases y <;> simp_all
          obtain ⟨g, gs, e1, e2⟩ := hhb ((isRed_node _ _ _).2 hy)
          obtain ⟨hlen, hfr⟩ := above_down v T
          rw [wayTo_eq] at hlen hfr
          obtain ⟨f, f1, -, f3, -⟩ := hfr q.length (by rw [hq]; simp)
          rw [e1] at hlen f1
          have hg : gs.length = q.length := by
            rw [hq] at hlen; simpa using hlen
          rw [List.reverse_cons, ← hg, ← List.length_reverse, List.getElem?_concat_length] at f1
          cases f1
          rw [hq] at f3
          simp only [List.take_left] at f3
          obtain ⟨x, hx⟩ := hred
          rw [hx] at f3
          rw [← Option.some.inj f3] at e2
          cases e2
      obtain ⟨m', h1, h2, h3⟩ := hmain
      rw [losesAt_iff v T y h3, wayTo_eq]
      obtain ⟨k1, k2⟩ := recolor_iff _ _ _ _ _ _ h1 h2 e
      refine ⟨fun h => ?_, fun h m hm => ?_⟩
      · obtain ⟨_, h⟩ := k1 h
        exact blacken_rbI h
      · obtain ⟨m, hm⟩ := blacken_blI hm
        exact k2 h m hm

end Extra
