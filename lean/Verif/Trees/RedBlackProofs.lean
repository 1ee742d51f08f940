import Verif.Trees.RedBlackSpec
import Verif.Trees.SplayProofs
import Verif.Trees.TreapProofs
import Mathlib.Data.List.Chain

/-!
# Helper lemmas about `RedBlackTree`
-/

set_option linter.unusedSectionVars false
set_option linter.unusedSimpArgs false

namespace Extra
variable {N : Type} [LinearOrder N]

/-! ## The colour invariants by recursion -/

/-- 1 for black -/
def Color.bl : Color → Nat
  | .black => 1
  | .red => 0

/-- no red node has a red child, and every path down passes `n` black nodes -/
def rbI : BTree (N × Color) → Nat → Prop
  | .nil, n => n = 0
  | .node l w r, n => ∃ m, n = m + w.2.bl ∧ rbI l m ∧ rbI r m ∧
      (w.2 = .red → l.isRed = false ∧ r.isRed = false)

@[simp] theorem isRed_nil : (BTree.nil : BTree (N × Color)).isRed = false := rfl

theorem isRed_node (l : BTree (N × Color)) (w r) : (BTree.node l w r).isRed = true ↔ w.2 = .red := by
  obtain ⟨x, c⟩ := w
  cases c <;> simp [BTree.isRed]

theorem isRed_node_false (l : BTree (N × Color)) (w r) :
    (BTree.node l w r).isRed = false ↔ w.2 = .black := by
  obtain ⟨x, c⟩ := w
  cases c <;> simp [BTree.isRed]

theorem isRed_iff (t : BTree (N × Color)) : t.isRed = true ↔ ∃ x, t.root? = some (x, .red) := by
  rcases t with _ | ⟨l, ⟨x, c⟩, r⟩
  · simp [BTree.root?]
  · cases c <;> simp [BTree.isRed, BTree.root?]

theorem color_ne_red {c : Color} : c ≠ .red ↔ c = .black := by cases c <;> simp

theorem noRedRed_node (l : BTree (N × Color)) (w r) :
    NoRedRed (.node l w r) ↔ NoRedRed l ∧ NoRedRed r ∧ (w.2 = .red → l.isRed = false ∧ r.isRed = false) := by
  constructor
  · intro h
    refine ⟨fun p b x y hx hy => h (false :: p) b x y ?_ ?_, fun p b x y hx hy => h (true :: p) b x y ?_ ?_,
      fun hw => ⟨?_, ?_⟩⟩
    · simpa [BTree.at, BTree.sub] using hx
    · simpa [BTree.at, BTree.sub] using hy
    · simpa [BTree.at, BTree.sub] using hx
    · simpa [BTree.at, BTree.sub] using hy
    · by_contra hc
      rw [Bool.not_eq_false, isRed_iff] at hc
      obtain ⟨x, hx⟩ := hc
      have := h [] false w.1 (x, .red) (by rw [← hw]; rfl) (by simpa [BTree.at, BTree.sub] using hx)
      cases this
    · by_contra hc
      rw [Bool.not_eq_false, isRed_iff] at hc
      obtain ⟨x, hx⟩ := hc
      have := h [] true w.1 (x, .red) (by rw [← hw]; rfl) (by simpa [BTree.at, BTree.sub] using hx)
      cases this
  · rintro ⟨h1, h2, h3⟩ p b x y hx hy
    rcases p with _ | ⟨_ | _, p⟩
    · simp only [BTree.at, BTree.sub, BTree.root?, Option.some.injEq] at hx
      obtain ⟨k1, k2⟩ := h3 (by rw [hx])
      rw [← color_ne_red]
      intro hc
      cases b
      · have : l.isRed = true := (isRed_iff l).2 ⟨y.1, by
          rw [← hc]; simpa [BTree.at, BTree.sub] using hy⟩
        rw [k1] at this; cases this
      · have : r.isRed = true := (isRed_iff r).2 ⟨y.1, by
          rw [← hc]; simpa [BTree.at, BTree.sub] using hy⟩
        rw [k2] at this; cases this
    · exact h1 p b x y (by simpa [BTree.at, BTree.sub] using hx) (by simpa [BTree.at, BTree.sub] using hy)
    · exact h2 p b x y (by simpa [BTree.at, BTree.sub] using hx) (by simpa [BTree.at, BTree.sub] using hy)

theorem missing_node (l : BTree (N × Color)) (w r p) : MissingAt (.node l w r) p ↔
    ∃ b q, p = b :: q ∧ MissingAt (if b then r else l) q := by
  constructor
  · rintro ⟨h1, h2⟩
    rcases p with _ | ⟨b, q⟩
    · simp [BTree.at, BTree.sub, BTree.root?] at h1
    · refine ⟨b, q, rfl, ?_, ?_⟩
      · cases b <;> simpa [BTree.at, BTree.sub] using h1
      · rintro q' b' rfl
        have := h2 (b :: q') b' (by simp)
        cases b <;> simpa [BTree.at, BTree.sub] using this
  · rintro ⟨b, q, rfl, h1, h2⟩
    refine ⟨by cases b <;> simpa [BTree.at, BTree.sub] using h1, ?_⟩
    intro q' b' h
    rcases q' with _ | ⟨c, q'⟩
    · simp [BTree.at, BTree.sub, BTree.root?]
    · simp only [List.cons_append, List.cons.injEq] at h
      obtain ⟨rfl, rfl⟩ := h
      have := h2 q' b' rfl
      cases b <;> simpa [BTree.at, BTree.sub] using this

theorem exists_missing (t : BTree (N × Color)) : ∃ p, MissingAt t p := by
  induction t with
  | nil => exact ⟨[], rfl, by simp⟩
  | node l w r ihl _ =>
    obtain ⟨p, hp⟩ := ihl
    exact ⟨false :: p, (missing_node l w r _).2 ⟨false, p, rfl, by simpa using hp⟩⟩

theorem rbI_blacks (t : BTree (N × Color)) (n : Nat) :
    rbI t n ↔ NoRedRed t ∧ ∀ p, MissingAt t p → blacksOn t p = n := by
  induction t generalizing n with
  | nil =>
    simp only [rbI]
    constructor
    · rintro rfl
      exact ⟨fun p b x y h => by cases p <;> simp [BTree.at, BTree.sub, BTree.root?] at h,
        fun p _ => by cases p <;> rfl⟩
    · rintro ⟨-, h⟩
      exact (h [] ⟨rfl, by simp⟩).symm
  | node l w r ihl ihr =>
    rw [rbI, noRedRed_node]
    constructor
    · rintro ⟨m, rfl, hl, hr, hc⟩
      obtain ⟨l1, l2⟩ := (ihl m).1 hl
      obtain ⟨r1, r2⟩ := (ihr m).1 hr
      refine ⟨⟨l1, r1, hc⟩, fun p hp => ?_⟩
      obtain ⟨b, q, rfl, hq⟩ := (missing_node l w r p).1 hp
      obtain ⟨x, c⟩ := w
      cases b
      · rw [blacksOn, l2 q (by simpa using hq)]; cases c <;> simp [Color.bl]; omega
      · rw [blacksOn, r2 q (by simpa using hq)]; cases c <;> simp [Color.bl]; omega
    · rintro ⟨⟨l1, r1, hc⟩, h⟩
      obtain ⟨p, hp⟩ := exists_missing l
      have key : ∀ b q, MissingAt (if b = true then r else l) q →
          (if w.2 = .black then 1 else 0) + blacksOn (if b = true then r else l) q = n := by
        intro b q hq
        have := h (b :: q) ((missing_node l w r _).2 ⟨b, q, rfl, hq⟩)
        cases b <;> simpa [blacksOn] using this
      have hn : n = blacksOn l p + w.2.bl := by
        rw [← key false p (by simpa using hp)]
        obtain ⟨x, c⟩ := w
        cases c <;> simp [Color.bl]; omega
      refine ⟨blacksOn l p, hn, (ihl _).2 ⟨l1, fun q hq => ?_⟩, (ihr _).2 ⟨r1, fun q hq => ?_⟩, hc⟩
      · have h1 := key false q (by simpa using hq)
        have h2 := key false p (by simpa using hp)
        simp at h1 h2; omega
      · have h1 := key true q (by simpa using hq)
        have h2 := key false p (by simpa using hp)
        simp at h1 h2; omega

theorem redBlackOk_iff (t : BTree (N × Color)) : RedBlackOk t ↔ (∃ n, rbI t n) ∧ t.isRed = false := by
  have hroot : RootBlack t ↔ t.isRed = false := by
    rcases t with _ | ⟨l, ⟨x, c⟩, r⟩
    · simp [RootBlack, BTree.at, BTree.sub, BTree.root?]
    · cases c <;> simp [RootBlack, BTree.at, BTree.sub, BTree.root?, BTree.isRed]
  constructor
  · rintro ⟨h1, ⟨n, h2⟩, h3⟩
    exact ⟨⟨n, (rbI_blacks t n).2 ⟨h1, h2⟩⟩, hroot.1 h3⟩
  · rintro ⟨⟨n, h⟩, h3⟩
    obtain ⟨h1, h2⟩ := (rbI_blacks t n).1 h
    exact ⟨h1, ⟨n, h2⟩, hroot.2 h3⟩

theorem blacken_rbI {t : BTree (N × Color)} {n} (h : rbI t n) : ∃ m, rbI t.blacken m := by
  cases t with
  | nil => exact ⟨n, h⟩
  | node l w r =>
    obtain ⟨m, -, hl, hr, -⟩ := h
    exact ⟨m + 1, m, rfl, hl, hr, by simp⟩

theorem blacken_rbI_red {t : BTree (N × Color)} {n} (h : rbI t n) (hr : t.isRed = true) :
    rbI t.blacken (n + 1) := by
  cases t with
  | nil => cases hr
  | node l w r =>
    obtain ⟨m, e, hl, hr', -⟩ := h
    rw [isRed_node] at hr
    rw [hr] at e
    exact ⟨m, by simp [e, Color.bl], hl, hr', by simp⟩

@[simp] theorem blacken_isRed (t : BTree (N × Color)) : t.blacken.isRed = false := by
  cases t <;> rfl

@[simp] theorem blacken_keys (t : BTree (N × Color)) : t.blacken.keys = t.keys := by
  cases t <;> simp [BTree.blacken]

theorem BTree.blacken_node (l : BTree (N × Color)) (w r) :
    (BTree.node l w r).blacken = .node l (w.1, .black) r := rfl

/-! ## Numbers along the nodes above -/

theorem plug_keys (fs : List (Above N Color)) : ∃ A B : List N,
    ∀ t, (plug t fs).keys = A ++ t.keys ++ B := by
  obtain ⟨A, B, h⟩ := plug_inorder fs
  exact ⟨A.map Prod.fst, B.map Prod.fst, fun t => by simp [BTree.keys, h]⟩

theorem plug_keys_congr (fs : List (Above N Color)) {s t : BTree (N × Color)} (h : s.keys = t.keys) :
    (plug s fs).keys = (plug t fs).keys := by
  obtain ⟨A, B, k⟩ := plug_keys fs
  rw [k, k, h]

theorem plug_sorted {t : BTree (N × Color)} {fs : List (Above N Color)}
    (h : (plug t fs).keys.Pairwise (· < ·)) : t.keys.Pairwise (· < ·) := by
  obtain ⟨A, B, k⟩ := plug_keys fs
  rw [k] at h
  exact (List.pairwise_append.1 (List.pairwise_append.1 h).1).2.1

theorem sorted_side {t : BTree (N × Color)} {f : Above N Color} {fs : List (Above N Color)}
    (h : (plug t (f :: fs)).keys.Pairwise (· < ·)) {y : N} (hy : y ∈ t.keys) : sideOk f y = true := by
  have h' := plug_sorted (fs := fs) (by simpa [plug] using h)
  cases hf : f.left with
  | true =>
    rw [hf, if_pos rfl] at h'
    have := (sorted_node.1 h').2.2.1 y hy
    simp [sideOk, hf, this]
  | false =>
    rw [hf, if_neg (by simp)] at h'
    have := (sorted_node.1 h').2.2.2 y hy
    simp [sideOk, hf, this.le]

theorem sorted_attach {t : BTree (N × Color)} {fs : List (Above N Color)}
    (h : (plug t fs).keys.Pairwise (· < ·)) {y : N} (hy : y ∈ t.keys) : attachOk fs y = true := by
  cases fs with
  | nil => rfl
  | cons f fs => exact sorted_side h hy

/-! ## `__recolor` keeps the numbers -/

theorem recolor_ok : ∀ (fs : List (Above N Color)) (a : BTree (N × Color)) (x b),
    (plug (.node a x b) fs).keys.Pairwise (· < ·) →
    ∃ t, rbRecolor a x b fs = .ok t ∧ t.keys = (plug (.node a x b) fs).keys
  | [], a, x, b, _ => ⟨_, rfl, rfl⟩
  | [f], a, x, b, _ => ⟨_, rfl, rfl⟩
  | f :: g :: fs, a, x, b, h => by
    rw [rbRecolor]
    by_cases hb : f.w.2 = .black
    · rw [if_pos hb]; exact ⟨_, rfl, rfl⟩
    have hf : sideOk f x.1 = true := sorted_side h (by simp)
    have hg : sideOk g f.w.1 = true := by
      refine sorted_side (t := if f.left then .node (.node a x b) f.w f.other
        else .node f.other f.w (.node a x b)) (fs := fs) (by simpa [plug] using h) ?_
      cases f.left <;> simp
    have step : ∀ a' x' b', (BTree.node a' x' b').keys = (plug (.node a x b) [f, g]).keys →
        (plug (.node a' x' b') fs).keys = (plug (.node a x b) (f :: g :: fs)).keys ∧
          ∃ t, rbRecolor a' x' b' fs = .ok t ∧ t.keys = (plug (.node a x b) (f :: g :: fs)).keys := by
      intro a' x' b' hk
      have e : (plug (.node a' x' b') fs).keys = (plug (.node a x b) (f :: g :: fs)).keys := by
        rw [plug_keys_congr fs hk, ← plug_append]; rfl
      obtain ⟨t, h1, h2⟩ := recolor_ok fs a' x' b' (e ▸ h)
      exact ⟨e, t, h1, h2.trans e⟩
    have att : ∀ y, y ∈ (plug (.node a x b) [f, g]).keys → attachOk fs y = true := by
      intro y hy
      refine sorted_attach (t := plug (.node a x b) [f, g]) ?_ hy
      rw [← plug_append]
      exact h
    rw [if_neg hb, if_neg (by simp [hg])]
    by_cases hu : g.other.isRed = true
    · rw [if_pos hu]
      cases hgl : g.left <;> cases hfl : f.left <;>
        exact (step _ _ _ (by simp [plug, hgl, hfl])).2
    · rw [if_neg hu, if_neg (by simp [hf])]
      cases hgl : g.left <;> cases hfl : f.left <;> simp only
      · rw [if_pos (att _ (by simp [plug, hgl, hfl]))]
        exact (step _ _ _ (by simp [plug, hgl, hfl])).2
      · rw [if_pos (att _ (by simp [plug, hgl, hfl]))]
        exact (step _ _ _ (by simp [plug, hgl, hfl])).2
      · rw [if_pos (att _ (by simp [plug, hgl, hfl]))]
        exact (step _ _ _ (by simp [plug, hgl, hfl])).2
      · rw [if_pos (att _ (by simp [plug, hgl, hfl]))]
        exact (step _ _ _ (by simp [plug, hgl, hfl])).2

/-! ## `__recolor` and the colours -/

/-- there is a node above and the nearest one is black -/
def headBlack (fs : List (Above N Color)) : Prop := ∃ g gs, fs = g :: gs ∧ g.w.2 = .black

/-- the nodes above fit a subtree with `n` black nodes on each path -/
def ctxOk : List (Above N Color) → Nat → Prop
  | [], _ => True
  | f :: fs, n => rbI f.other n ∧ (f.w.2 = .red → f.other.isRed = false ∧ headBlack fs) ∧
      ctxOk fs (n + f.w.2.bl)

/-- two neighbouring nodes above: not a red one without red sibling at which the way turns -/
def okPair (f g : Above N Color) : Prop := ¬ (f.w.2 = .red ∧ f.left ≠ g.left ∧ g.other.isRed = false)

theorem plug_rb : ∀ (fs : List (Above N Color)) (s : BTree (N × Color)) (n : Nat), rbI s n → ctxOk fs n →
    (s.isRed = true → fs = [] ∨ headBlack fs) → ∃ m, rbI (plug s fs) m
  | [], s, n, h, _, _ => ⟨n, h⟩
  | f :: fs, s, n, h, ⟨h1, h2, h3⟩, hr => by
    have hred : f.w.2 = .red → s.isRed = false := by
      intro hf
      by_contra hc
      rw [Bool.not_eq_false] at hc
      rcases hr hc with hr | ⟨g, gs, e, hb⟩
      · cases hr
      · cases e; rw [hb] at hf; cases hf
    refine plug_rb fs (if f.left then .node s f.w f.other else .node f.other f.w s) (n + f.w.2.bl) ?_ h3 ?_
    · cases f.left
      · exact ⟨n, rfl, h1, h, fun hf => ⟨(h2 hf).1, hred hf⟩⟩
      · exact ⟨n, rfl, h, h1, fun hf => ⟨hred hf, (h2 hf).1⟩⟩
    · intro hc
      right
      refine (h2 ?_).2
      cases hl : f.left <;> rw [hl] at hc <;> simpa [isRed_node] using hc

theorem recolor_rb : ∀ (fs : List (Above N Color)) (a : BTree (N × Color)) (x b) (n : Nat) (t),
    rbI (.node a x b) n → ctxOk fs n → fs.tail.IsChain okPair → (x.2 = .red ∨ fs.IsChain okPair) →
    rbRecolor a x b fs = .ok t → ∃ m, rbI t m
  | [], a, x, b, n, t, h, _, _, _, e => by
    cases e; exact ⟨n, h⟩
  | [f], a, x, b, n, t, h, hc, _, _, e => by
    cases e
    refine plug_rb [f] _ n h hc fun _ => .inr ⟨f, [], rfl, ?_⟩
    by_contra hr
    obtain ⟨g, gs, e, -⟩ := (hc.2.1 (by cases hc : f.w.2 <;> simp_all)).2
    cases e
  | f :: g :: fs, a, x, b, n, t, h, ⟨c1, c2, c3, c4, c5⟩, ht, hx, e => by
    rw [rbRecolor] at e
    by_cases hb : f.w.2 = .black
    · rw [if_pos hb] at e
      cases e
      exact plug_rb (f :: g :: fs) _ n h ⟨c1, c2, c3, c4, c5⟩ fun _ => .inr ⟨f, _, rfl, hb⟩
    have hr : f.w.2 = .red := by cases hc : f.w.2 <;> simp_all
    obtain ⟨hfo, g', gs', e', hgb⟩ := c2 hr
    cases e'
    have hbl : n + f.w.2.bl = n := by rw [hr]; rfl
    rw [hbl] at c3 c5
    rw [hgb] at c5
    have c5' : ctxOk fs (n + 1) := c5
    have htail : fs.IsChain okPair := by
      simp only [List.tail_cons] at ht
      exact ht.tail
    rw [if_neg hb] at e
    by_cases s1 : sideOk g f.w.1 = false
    · rw [if_pos s1] at e; cases e
    rw [if_neg s1] at e
    by_cases hu : g.other.isRed = true
    · -- case II
      rw [if_pos hu] at e
      have hP : rbI (.node (.node a x b) (f.w.1, .black) f.other) (n + 1) := ⟨n, rfl, h, c1, by simp⟩
      have hP' : rbI (.node f.other (f.w.1, .black) (.node a x b)) (n + 1) := ⟨n, rfl, c1, h, by simp⟩
      have hU := blacken_rbI_red c3 hu
      have k : ∀ a' b', rbI a' (n + 1) → rbI b' (n + 1) → a'.isRed = false → b'.isRed = false →
          rbRecolor a' (g.w.1, .red) b' fs = .ok t → ∃ m, rbI t m := by
        intro a' b' ha hb ra rb e
        exact recolor_rb fs a' _ b' (n + 1) t ⟨n + 1, rfl, ha, hb, fun _ => ⟨ra, rb⟩⟩ c5' htail.tail
          (.inl rfl) e
      cases hgl : g.left <;> cases hfl : f.left <;> rw [hgl, hfl] at e
      · exact k _ _ hU hP' (by simp) rfl e
      · exact k _ _ hU hP (by simp) rfl e
      · exact k _ _ hP' hU rfl (by simp) e
      · exact k _ _ hP hU rfl (by simp) e
    · -- case III
      rw [if_neg hu] at e
      by_cases s2 : sideOk f x.1 = false
      · rw [if_pos s2] at e; cases e
      rw [if_neg s2] at e
      have hu' : g.other.isRed = false := by simpa using hu
      have k : ∀ a' y b', rbI a' n → rbI b' n → rbRecolor a' (y, .black) b' fs = .ok t → ∃ m, rbI t m := by
        intro a' y b' ha hb e
        exact recolor_rb fs a' _ b' (n + 1) t ⟨n, rfl, ha, hb, by simp⟩ c5' htail.tail (.inr htail) e
      have inner : f.left ≠ g.left → x.2 = .red := by
        intro hne
        rcases hx with hx | hx
        · exact hx
        · exact absurd ⟨hr, hne, hu'⟩ (List.isChain_cons_cons.1 hx).1
      obtain ⟨m, hm, ha, hb', hab⟩ := h
      cases hgl : g.left <;> cases hfl : f.left <;> rw [hgl, hfl] at e <;> simp only at e <;>
        split_ifs at e
      · refine k _ _ _ ?_ ?_ e
        · exact ⟨n, rfl, c3, c1, fun _ => ⟨hu', hfo⟩⟩
        · exact ⟨m, hm, ha, hb', hab⟩
      · have hx := inner (by simp [hgl, hfl])
        have hmn : m = n := by rw [hm, hx]; rfl
        subst hmn
        refine k _ _ _ ?_ ?_ e
        · exact ⟨_, rfl, c3, ha, fun _ => ⟨hu', (hab hx).1⟩⟩
        · exact ⟨_, by rw [hr]; rfl, hb', c1, fun _ => ⟨(hab hx).2, hfo⟩⟩
      · have hx := inner (by simp [hgl, hfl])
        have hmn : m = n := by rw [hm, hx]; rfl
        subst hmn
        refine k _ _ _ ?_ ?_ e
        · exact ⟨_, by rw [hr]; rfl, c1, ha, fun _ => ⟨hfo, (hab hx).1⟩⟩
        · exact ⟨_, rfl, hb', c3, fun _ => ⟨(hab hx).2, hu'⟩⟩
      · refine k _ _ _ ?_ ?_ e
        · exact ⟨m, hm, ha, hb', hab⟩
        · exact ⟨n, rfl, c1, c3, fun _ => ⟨hfo, hu'⟩⟩

/-! ## The way to the inserted node -/

theorem descend_rb (t : BTree (N × Color)) : ∀ (p : List Bool) (fs : List (Above N Color)) (n : Nat),
    rbI t n → ctxOk fs n → (t.isRed = true → headBlack fs) →
    ∃ m, rbI (t.walk p) m ∧ ctxOk (t.above p ++ fs) m ∧
      ((t.walk p).isRed = true → headBlack (t.above p ++ fs)) := by
  induction t with
  | nil =>
    intro p fs n h hc _
    refine ⟨n, ?_, ?_, ?_⟩
    · cases p <;> exact h
    · simpa [BTree.above] using hc
    · cases p <;> simp [BTree.walk]
  | node l w r ihl ihr =>
    intro p fs n h hc hr
    obtain ⟨m, rfl, hl, hr', hlr⟩ := h
    rcases p with _ | ⟨_ | _, p⟩
    · exact ⟨_, ⟨m, rfl, hl, hr', hlr⟩, by simpa [BTree.above] using hc,
        by simpa [BTree.above, BTree.walk] using hr⟩
    · have := ihl p (⟨true, w, r⟩ :: fs) m hl
        ⟨hr', fun hw => ⟨(hlr hw).2, hr ((isRed_node _ _ _).2 hw)⟩, hc⟩
        (fun hlred => ⟨_, _, rfl, by
          by_contra hcon
          have := (hlr (by cases hc : w.2 <;> simp_all)).1
          rw [this] at hlred; cases hlred⟩)
      simpa [BTree.above, BTree.walk] using this
    · have := ihr p (⟨false, w, l⟩ :: fs) m hr'
        ⟨hl, fun hw => ⟨(hlr hw).1, hr ((isRed_node _ _ _).2 hw)⟩, hc⟩
        (fun hrred => ⟨_, _, rfl, by
          by_contra hcon
          have := (hlr (by cases hc : w.2 <;> simp_all)).2
          rw [this] at hrred; cases hrred⟩)
      simpa [BTree.above, BTree.walk] using this

theorem insert_above (v : N × Color) (t : BTree (N × Color)) :
    (t.insertNode v).1.above (t.insertPath v.1) = t.above (t.insertPath v.1) := by
  induction t with
  | nil => rfl
  | node l w r ihl ihr =>
    rw [insertNode_node, BTree.insertPath]
    split_ifs with e1 e2
    · rfl
    · simp [BTree.above, ihl]
    · simp [BTree.above, ihr]

theorem insert_walk (v : N × Color) (t : BTree (N × Color)) :
    (t.insertNode v).1.walk (t.insertPath v.1) =
      match t.walk (t.insertPath v.1) with
      | .nil => .node .nil v .nil
      | s => s := by
  induction t with
  | nil => rfl
  | node l w r ihl ihr =>
    rw [insertNode_node, BTree.insertPath]
    split_ifs with e1 e2
    · rfl
    · simpa [BTree.walk] using ihl
    · simpa [BTree.walk] using ihr

theorem turns_chain (v : N) (t : BTree (N × Color)) (h : ¬ BadTurn v t) :
    (t.above (t.insertPath v)).tail.IsChain okPair ∧
      (t.walk (t.insertPath v) ≠ .nil → (t.above (t.insertPath v)).IsChain okPair) := by
  induction t with
  | nil => simp [BTree.above, BTree.insertPath]
  | node l w r ihl ihr =>
    -- one node further up
    have ext : ∀ (c : BTree (N × Color)) (f : Above N Color), ((c.above (c.insertPath v)).tail.IsChain okPair ∧
        (c.walk (c.insertPath v) ≠ .nil → (c.above (c.insertPath v)).IsChain okPair)) →
        (∀ cl cw cr, c = .node cl cw cr → (v < cw.1 → cl ≠ .nil → okPair ⟨true, cw, cr⟩ f) ∧
          (cw.1 < v → cr ≠ .nil → okPair ⟨false, cw, cl⟩ f)) →
        (c.above (c.insertPath v) ++ [f]).tail.IsChain okPair ∧
        (c.walk (c.insertPath v) ≠ .nil → (c.above (c.insertPath v) ++ [f]).IsChain okPair) := by
      intro c f ih hp
      cases c with
      | nil => simp [BTree.above, BTree.insertPath]
      | node cl cw cr =>
        obtain ⟨hp1, hp2⟩ := hp cl cw cr rfl
        rw [BTree.insertPath] at ih ⊢
        split_ifs at ih ⊢ with e1 e2
        · simp [BTree.above]
        · simp only [BTree.above, BTree.walk] at ih ⊢
          by_cases hn : cl = .nil
          · subst hn
            simp [BTree.above, BTree.insertPath, BTree.walk]
          · have hok := hp1 e2 hn
            refine ⟨?_, fun hw => ?_⟩
            · rcases hA : cl.above (cl.insertPath v) with _ | ⟨y, ys⟩
              · simp
              · rw [hA] at ih
                simp only [List.cons_append, List.tail_cons, List.append_assoc, List.nil_append] at ih ⊢
                rw [List.isChain_append] at ih ⊢
                refine ⟨ih.1.1, by simpa using hok, ?_⟩
                intro x hx y hy
                exact ih.1.2.2 x hx y hy
            · have := ih.2 hw
              rw [List.isChain_append]
              refine ⟨this, by simp, ?_⟩
              simpa using hok
        · have e3 : cw.1 < v := lt_of_le_of_ne (not_lt.1 e2) (Ne.symm e1)
          simp only [BTree.above, BTree.walk] at ih ⊢
          by_cases hn : cr = .nil
          · subst hn
            simp [BTree.above, BTree.insertPath, BTree.walk]
          · have hok := hp2 e3 hn
            refine ⟨?_, fun hw => ?_⟩
            · rcases hA : cr.above (cr.insertPath v) with _ | ⟨y, ys⟩
              · simp
              · rw [hA] at ih
                simp only [List.cons_append, List.tail_cons, List.append_assoc, List.nil_append] at ih ⊢
                rw [List.isChain_append] at ih ⊢
                refine ⟨ih.1.1, by simpa using hok, ?_⟩
                intro x hx y hy
                exact ih.1.2.2 x hx y hy
            · have := ih.2 hw
              rw [List.isChain_append]
              refine ⟨this, by simp, ?_⟩
              simpa using hok
    rw [BadTurn] at h
    push Not at h
    rw [BTree.insertPath]
    split_ifs with e1 e2
    · simp [BTree.above]
    · obtain ⟨h1, h2⟩ := h.1 e2
      simp only [BTree.above, BTree.walk]
      refine ext l ⟨true, w, r⟩ (ihl h2) ?_
      rintro cl ⟨x, c⟩ cr rfl
      refine ⟨fun _ _ hbad => hbad.2.1 rfl, fun hx hne hbad => ?_⟩
      obtain ⟨b1, -, b3⟩ := hbad
      simp only at b1
      subst b1
      exact h1 ⟨hx, hne⟩ b3
    · have e3 : w.1 < v := lt_of_le_of_ne (not_lt.1 e2) (Ne.symm e1)
      obtain ⟨h1, h2⟩ := h.2 e3
      simp only [BTree.above, BTree.walk]
      refine ext r ⟨false, w, l⟩ (ihr h2) ?_
      rintro cl ⟨x, c⟩ cr rfl
      refine ⟨fun hx hne hbad => ?_, fun _ _ hbad => hbad.2.1 rfl⟩
      obtain ⟨b1, -, b3⟩ := hbad
      simp only at b1
      subst b1
      exact h1 ⟨hx, hne⟩ b3

/-! ## Insertion -/

theorem rbInsert_ok (t : Bst N Color) (v : N) (hs : t.root.keys.Pairwise (· < ·)) :
    ∃ t', rbInsertNum t v = .ok (t', !(t.root.insertNode (v, .red)).2) ∧
      t'.root.keys = (t.root.insertNode (v, .red)).1.keys ∧ t'.root.isRed = false ∧
      t'.length = (if (t.root.insertNode (v, .red)).2 then t.length + 1 else t.length) ∧
      (t.root.isRed = false → (∃ n, rbI t.root n) → ¬ BadTurn v t.root → ∃ n, rbI t'.root n) := by
  obtain ⟨t, k⟩ := t
  cases t with
  | nil =>
    exact ⟨⟨.node .nil (v, .black) .nil, k + 1⟩, rfl, by simp [BTree.insertNode], rfl, rfl,
      fun _ _ _ => ⟨1, 0, rfl, rfl, rfl, by simp⟩⟩
  | node l w r =>
    simp only at hs
    set T := BTree.node l w r with hT
    obtain ⟨a, y, b, hw⟩ := insertPath_walk v Color.red T
    have hplug := plug_above (T.insertNode (v, .red)).1 (T.insertPath v) (by rw [hw]; simp)
    have hso := insertNode_sorted (v, .red) T hs
    rw [hw] at hplug
    obtain ⟨t', e, hk⟩ := recolor_ok ((T.insertNode (v, .red)).1.above (T.insertPath v)) a (v, y) b
      (by rw [hplug]; exact hso)
    refine ⟨⟨t'.blacken, if (T.insertNode (v, .red)).2 then k + 1 else k⟩, ?_, ?_, by simp, rfl, ?_⟩
    · rw [rbInsertNum]
      simp only [hT] at hw e ⊢
      simp only [descend_eq, hw, List.append_nil, e, bind, Except.bind, pure, Except.pure]
    · simp only [blacken_keys, hk, hplug]
    · rintro hr ⟨n, hn⟩ hbad
      simp only at hr hn hbad
      obtain ⟨c1, c2⟩ := turns_chain v T hbad
      obtain ⟨m, hm, hctx, -⟩ := descend_rb T (T.insertPath v) [] n hn trivial (by simp [hr])
      rw [List.append_nil] at hctx
      have hab := insert_above (v, .red) T
      have hwk := insert_walk (v, .red) T
      simp only at hab hwk
      rw [hab] at e
      rw [hw] at hwk
      cases hcur : T.walk (T.insertPath v) with
      | nil =>
        rw [hcur] at hwk hm
        simp only [BTree.node.injEq, Prod.mk.injEq] at hwk
        obtain ⟨rfl, ⟨-, rfl⟩, rfl⟩ := hwk
        obtain ⟨m', hm'⟩ := recolor_rb _ _ _ _ m t' ⟨m, rfl, hm, hm, by simp⟩ hctx c1 (.inl rfl) e
        exact blacken_rbI hm'
      | node a' z b' =>
        rw [hcur] at hwk hm
        simp only at hwk
        obtain ⟨m', hm'⟩ := recolor_rb _ _ _ _ m t' (hwk ▸ hm) hctx c1 (.inr (c2 (by simp [hcur]))) e
        exact blacken_rbI hm'

/-! ## `__handle_double_black` keeps the numbers -/

/-- a round keeps the numbers `K`, or raises an `AttributeError`; `Q` holds of what comes next -/
def StepOk (K : List N) (Q : BTree (N × Color) → N × Color → Prop) : Except Err (DbStep N) → Prop
  | .error e => e = .attributeError
  | .ok (.done t) => t.keys = K
  | .ok (.again l x r fs) => (plug (.node l x r) fs).keys = K ∧ Q l x

theorem isRed_recolored (a : BTree (N × Color)) (s : N) (b) : (BTree.node a (s, Color.red) b).isRed = true := rfl

theorem fixLeft_ok (l : BTree (N × Color)) (x r) (fs : List (Above N Color))
    (h : (plug (.node l x r) fs).keys.Pairwise (· < ·)) :
    StepOk (plug (.node l x r) fs).keys (fun _ _ => True) (rbFixLeft l x r fs) := by
  cases r with
  | nil => simp [rbFixLeft, StepOk]
  | node a s b =>
    rw [rbFixLeft.eq_def]
    simp only
    by_cases h1 : a.isRed = false ∧ b.isRed = false
    · rw [if_pos h1]; exact ⟨plug_keys_congr fs (by simp), trivial⟩
    rw [if_neg h1]
    by_cases h2 : b.isRed = true
    · rw [if_pos h2, if_pos (sorted_attach h (by simp))]
      exact plug_keys_congr fs (by simp)
    · rw [if_neg h2]
      cases a with
      | nil => simp [StepOk]
      | node aa u ab =>
        have k1 := sorted_attach h (y := u.1) (by simp)
        have k2 : sideOk (⟨false, x, l⟩ : Above N Color) u.1 = true :=
          sorted_side (f := ⟨false, x, l⟩) (t := .node (.node aa u ab) s b) (fs := fs)
            (by simpa [plug] using h) (by simp)
        simp only
        rw [if_pos ⟨k2, k1⟩]
        exact plug_keys_congr fs (by simp)

theorem fixRight_ok (l : BTree (N × Color)) (x r) (fs : List (Above N Color))
    (h : (plug (.node l x r) fs).keys.Pairwise (· < ·)) :
    StepOk (plug (.node l x r) fs).keys (fun l' x' => l'.isRed = true ∧ x' = x) (rbFixRight l x r fs) := by
  cases l with
  | nil => simp [rbFixRight, StepOk]
  | node a s b =>
    rw [rbFixRight.eq_def]
    simp only
    by_cases h1 : b.isRed = false ∧ b.isRed = false
    · rw [if_pos h1]; exact ⟨plug_keys_congr fs (by simp), rfl, rfl⟩
    rw [if_neg h1]
    by_cases h2 : a.isRed = true
    · rw [if_pos h2, if_pos (sorted_attach h (by simp))]
      exact plug_keys_congr fs (by simp)
    · rw [if_neg h2]
      cases b with
      | nil => simp [StepOk]
      | node ba u bb =>
        have k1 := sorted_attach h (y := u.1) (by simp)
        have k2 : sideOk (⟨true, x, r⟩ : Above N Color) u.1 = true :=
          sorted_side (f := ⟨true, x, r⟩) (t := .node a s (.node ba u bb)) (fs := fs)
            (by simpa [plug] using h) (by simp)
        simp only
        rw [if_pos ⟨k2, k1⟩]
        exact plug_keys_congr fs (by simp)

theorem StepOk.mono {K : List N} {Q Q' : BTree (N × Color) → N × Color → Prop} {s}
    (h : StepOk K Q s) (hq : ∀ l x, Q l x → Q' l x) : StepOk K Q' s := by
  match s, h with
  | .error e, h => exact h
  | .ok (.done t), h => exact h
  | .ok (.again l x r fs), h => exact ⟨h.1, hq _ _ h.2⟩

theorem left_ok (l : BTree (N × Color)) (x r) (fs : List (Above N Color))
    (h : (plug (.node l x r) fs).keys.Pairwise (· < ·)) :
    StepOk (plug (.node l x r) fs).keys (fun _ _ => True) (rbLeft l x r fs) := by
  rw [rbLeft.eq_def]
  split
  · rename_i sl s sr
    rw [if_pos (sorted_attach h (by simp))]
    have e : (plug (.node l x (.node sl (s, .red) sr)) fs).keys =
        (plug (.node l (x.1, .red) sl) (⟨true, (s, .black), sr⟩ :: fs)).keys :=
      plug_keys_congr fs (by simp)
    rw [e] at h ⊢
    exact fixLeft_ok _ _ _ _ h
  · exact fixLeft_ok _ _ _ _ h

theorem right_ok (l : BTree (N × Color)) (x r) (fs : List (Above N Color))
    (h : (plug (.node l x r) fs).keys.Pairwise (· < ·)) :
    StepOk (plug (.node l x r) fs).keys (fun l' x' => x'.2 = .red ∨ (l'.isRed = true ∧ l.isRed = false))
      (rbRight l x r fs) := by
  rw [rbRight.eq_def]
  split
  · rename_i sl s sr
    rw [if_pos (sorted_attach h (by simp))]
    have e : (plug (.node (.node sl (s, .red) sr) x r) fs).keys =
        (plug (.node sr (x.1, .red) r) (⟨false, (s, .black), sl⟩ :: fs)).keys :=
      plug_keys_congr fs (by simp)
    rw [e] at h ⊢
    exact (fixRight_ok _ _ _ _ h).mono (fun l' x' k => .inl (by rw [k.2]))
  · rename_i hl
    refine (fixRight_ok _ _ _ _ h).mono (fun l' x' k => .inr ⟨k.1, ?_⟩)
    rcases l with _ | ⟨a, ⟨s, c⟩, b⟩
    · rfl
    · cases c
      · rfl
      · exact absurd rfl (hl a s b)

/-- the loop keeps the numbers, or raises an `AttributeError` -/
def LoopOk (K : List N) : Except Err (BTree (N × Color)) → Prop
  | .error e => e = .attributeError
  | .ok t => t.keys = K

theorem double_step (n : Nat) (l : BTree (N × Color)) (x r) (fs : List (Above N Color)) (d : Dbn) (K)
    (Q : BTree (N × Color) → N × Color → Prop) (hK : (plug (.node l x r) fs).keys = K)
    (h : StepOk K Q (if dbIsLeft l d then rbLeft l x r fs else rbRight l x r fs))
    (next : ∀ l' x' r' fs', (plug (.node l' x' r') fs').keys = K → Q l' x' →
      LoopOk K (rbDouble n l' x' r' fs' .parent)) : LoopOk K (rbDouble (n + 1) l x r fs d) := by
  rw [rbDouble]
  by_cases h1 : dbStops l x r fs d = true
  · rw [if_pos h1]; exact hK
  · rw [if_neg h1]
    revert h
    generalize (if dbIsLeft l d then rbLeft l x r fs else rbRight l x r fs) = s
    intro h
    match s, h with
    | .error e, h => exact h
    | .ok (.done t), h => exact h
    | .ok (.again l' x' r' fs'), h => exact next _ _ _ _ h.1 h.2

theorem double_red (n : Nat) (l : BTree (N × Color)) (x r) (fs : List (Above N Color)) (hx : x.2 = .red) :
    LoopOk (plug (.node l x r) fs).keys (rbDouble (n + 1) l x r fs .parent) := by
  rw [rbDouble, if_pos (by simp [dbStops, hx])]
  rfl

theorem double_two (n : Nat) (l : BTree (N × Color)) (x r) (fs : List (Above N Color))
    (h : (plug (.node l x r) fs).keys.Pairwise (· < ·)) (hl : l.isRed = true) :
    LoopOk (plug (.node l x r) fs).keys (rbDouble (n + 2) l x r fs .parent) := by
  refine double_step (n + 1) l x r fs .parent _ (fun _ x' => x'.2 = .red) rfl ?_ ?_
  · rw [if_neg (by simp [dbIsLeft])]
    exact (right_ok l x r fs h).mono (fun l' x' k => k.elim id (fun k => by rw [hl] at k; cases k.2))
  · intro l' x' r' fs' e k
    rw [← e]
    exact double_red n l' x' r' fs' k

theorem double_three (n : Nat) (l : BTree (N × Color)) (x r) (fs : List (Above N Color))
    (h : (plug (.node l x r) fs).keys.Pairwise (· < ·)) :
    LoopOk (plug (.node l x r) fs).keys (rbDouble (n + 3) l x r fs .parent) := by
  refine double_step (n + 2) l x r fs .parent _ _ rfl (by
    rw [if_neg (by simp [dbIsLeft])]; exact right_ok l x r fs h) ?_
  intro l' x' r' fs' e k
  rw [← e] at h ⊢
  rcases k with k | k
  · exact double_red (n + 1) l' x' r' fs' k
  · exact double_two n l' x' r' fs' h k.1

theorem double_ok (n : Nat) (l : BTree (N × Color)) (x r) (fs : List (Above N Color)) (d : Dbn)
    (h : (plug (.node l x r) fs).keys.Pairwise (· < ·)) :
    LoopOk (plug (.node l x r) fs).keys (rbDouble (n + 4) l x r fs d) := by
  refine double_step (n + 3) l x r fs d _ (fun _ _ => True) rfl ?_ ?_
  · split_ifs
    · exact left_ok l x r fs h
    · exact (right_ok l x r fs h).mono (fun _ _ _ => trivial)
  · intro l' x' r' fs' e _
    rw [← e] at h ⊢
    exact double_three n l' x' r' fs' h

/-! ## Removal -/

theorem BTree.rb_inorder_node (l : BTree (N × Color)) (w r) :
    (BTree.node l w r).inorder = l.inorder ++ w :: r.inorder := by simp [BTree.inorder]

theorem rb_minNode (t : BTree (N × Color)) : t.minNode = t.inorder.head? := by
  induction t with
  | nil => rfl
  | node l w r ihl _ =>
    cases l with
    | nil => rfl
    | node a b c => rw [BTree.minNode, ihl]; simp [BTree.rb_inorder_node]

theorem rb_maxNode (t : BTree (N × Color)) : t.maxNode = t.inorder.getLast? := by
  induction t with
  | nil => rfl
  | node l w r _ ihr =>
    cases r with
    | nil => simp [BTree.maxNode, BTree.rb_inorder_node, BTree.inorder]
    | node a b c =>
      rw [BTree.maxNode, ihr]; simp [BTree.rb_inorder_node, List.getLast?_append, List.getLast?_cons]

theorem rbI_zero {t : BTree (N × Color)} (h : rbI t 0) : t = .nil ∨ ∃ x, t = .node .nil (x, .red) .nil := by
  have black_nil : ∀ t : BTree (N × Color), rbI t 0 → t.isRed = false → t = .nil := by
    intro t h hr
    cases t with
    | nil => rfl
    | node l w r =>
      rw [isRed_node_false] at hr
      obtain ⟨m, hm, -⟩ := h
      rw [hr] at hm
      simp [Color.bl] at hm
  cases t with
  | nil => exact .inl rfl
  | node l w r =>
    right
    obtain ⟨m, hm, hl, hr, hlr⟩ := h
    obtain ⟨x, c⟩ := w
    cases c with
    | black => simp [Color.bl] at hm
    | red =>
      have : m = 0 := by simp [Color.bl] at hm; omega
      subst this
      obtain ⟨h1, h2⟩ := hlr rfl
      exact ⟨x, by rw [black_nil l hl h1, black_nil r hr h2]⟩

theorem takeMinAll_spec (t : BTree (N × Color)) : ∀ n, rbI t n → t ≠ .nil → ∃ m t',
    t.takeMinAll = some (m, t') ∧ t.inorder = m :: t'.inorder ∧
      (m.2 = .red → rbI t' n ∧ (t'.isRed = true → t.isRed = true)) := by
  induction t with
  | nil => intro n _ h; exact absurd rfl h
  | node l w r ihl _ =>
    rintro n ⟨m, rfl, hl, hr, hlr⟩ -
    cases l with
    | nil =>
      have : m = 0 := hl
      subst this
      rcases rbI_zero hr with rfl | ⟨x, rfl⟩
      · exact ⟨w, .nil, rfl, by simp [BTree.rb_inorder_node, BTree.inorder],
          fun hw => ⟨by rw [hw]; rfl, by simp⟩⟩
      · exact ⟨w, .node .nil (x, .red) .nil, rfl, by simp [BTree.inorder],
          fun hw => absurd (hlr hw).2 (by simp [BTree.isRed])⟩
    | node ll lv lr =>
      obtain ⟨k, l', e, hi, hk⟩ := ihl m hl (by simp)
      refine ⟨k, .node l' w r, by simp [BTree.takeMinAll, e], ?_, fun hred => ?_⟩
      · rw [BTree.rb_inorder_node, hi, BTree.rb_inorder_node]; rfl
      · obtain ⟨k1, k2⟩ := hk hred
        refine ⟨⟨m, rfl, k1, hr, fun hw => ⟨?_, (hlr hw).2⟩⟩, fun h => ?_⟩
        · by_contra hc
          rw [Bool.not_eq_false] at hc
          have := k2 hc
          rw [(hlr hw).1] at this; cases this
        · rw [isRed_node] at h ⊢; exact h

theorem takeMaxAll_spec (t : BTree (N × Color)) : ∀ n, rbI t n → t ≠ .nil → ∃ m t',
    t.takeMaxAll = some (m, t') ∧ t.inorder = t'.inorder ++ [m] ∧
      (m.2 = .red → rbI t' n ∧ (t'.isRed = true → t.isRed = true)) := by
  induction t with
  | nil => intro n _ h; exact absurd rfl h
  | node l w r _ ihr =>
    rintro n ⟨m, rfl, hl, hr, hlr⟩ -
    cases r with
    | nil =>
      have : m = 0 := hr
      subst this
      rcases rbI_zero hl with rfl | ⟨x, rfl⟩
      · exact ⟨w, .nil, rfl, by simp [BTree.rb_inorder_node, BTree.inorder],
          fun hw => ⟨by rw [hw]; rfl, by simp⟩⟩
      · exact ⟨w, .node .nil (x, .red) .nil, rfl, by simp [BTree.inorder],
          fun hw => absurd (hlr hw).1 (by simp [BTree.isRed])⟩
    | node rl rv rr =>
      obtain ⟨k, r', e, hi, hk⟩ := ihr m hr (by simp)
      refine ⟨k, .node l w r', by simp [BTree.takeMaxAll, e], ?_, fun hred => ?_⟩
      · rw [BTree.rb_inorder_node, hi, BTree.rb_inorder_node]; simp
      · obtain ⟨k1, k2⟩ := hk hred
        refine ⟨⟨m, rfl, hl, k1, fun hw => ⟨(hlr hw).1, ?_⟩⟩, fun h => ?_⟩
        · by_contra hc
          rw [Bool.not_eq_false] at hc
          have := k2 hc
          rw [(hlr hw).2] at this; cases this
        · rw [isRed_node] at h ⊢; exact h

/-- the transplant, in a tree that keeps the invariants -/
theorem transplant_spec (l : BTree (N × Color)) (x r) (n : Nat) (h : rbI (.node l x r) n) :
    ∃ s c, rbTransplant l r (rbChoice l r) = some (s, c) ∧ s.inorder = l.inorder ++ r.inorder ∧
      (c = none ↔ l = .nil ∧ r = .nil) ∧ (c = some .red ↔ RedNeighbour l r) ∧
      (c = none → s = .nil) ∧
      (c = some .red → (rbI s.blacken (n - x.2.bl + 1)) ∧ (x.2 = .red → rbI s n ∧ s.isRed = true)) := by
  obtain ⟨m, rfl, hl, hr, hlr⟩ := h
  have hmin := rb_minNode r
  have hmax := rb_maxNode l
  by_cases hrn : r = .nil
  · subst hrn
    by_cases hln : l = .nil
    · subst hln
      exact ⟨.nil, none, rfl, rfl, by simp, by simp [RedNeighbour, BTree.inorder], fun _ => rfl, by simp⟩
    · obtain ⟨k, l', e, hi, hk⟩ := takeMaxAll_spec l m hl hln
      rw [hi, List.getLast?_append] at hmax
      simp only [List.getLast?_singleton, Option.some_or] at hmax
      have hm0 : m = 0 := hr
      refine ⟨.node l' k .nil, some k.2, ?_, ?_, by simp [hln], ?_, by simp, ?_⟩
      · rw [rbChoice, hmax]
        obtain ⟨k, _ | _⟩ := k <;> simp [BTree.minNode, rbTransplant, e]
      · rw [hi, BTree.rb_inorder_node]; simp
      · rw [RedNeighbour, hi]
        simp only [BTree.inorder, List.head?_nil, List.getLast?_append,
          List.getLast?_singleton, Option.some_or, Option.some.injEq, reduceCtorEq, exists_false, false_or]
        exact ⟨fun hc => ⟨k.1, Prod.ext rfl hc⟩, fun ⟨y, hy⟩ => by rw [hy]⟩
      · intro hc
        simp only [Option.some.injEq] at hc
        obtain ⟨k1, k2⟩ := hk hc
        refine ⟨⟨m, by simp [Color.bl], k1, hr, by simp⟩, fun hx => ⟨⟨m, by rw [hc, hx], k1, hr, fun _ => ⟨?_, rfl⟩⟩,
          (isRed_node _ _ _).2 hc⟩⟩
        by_contra hcon
        rw [Bool.not_eq_false] at hcon
        have := k2 hcon
        rw [(hlr hx).1] at this; cases this
  · obtain ⟨k, r', e, hi, hk⟩ := takeMinAll_spec r m hr hrn
    rw [hi] at hmin
    simp only [List.head?_cons] at hmin
    by_cases hkr : k.2 = .red
    · refine ⟨.node l k r', some .red, ?_, ?_, by simp [hrn], ?_, by simp, ?_⟩
      · rw [rbChoice, hmin]
        obtain ⟨k, c⟩ := k
        simp only at hkr
        subst hkr
        simp [rbTransplant, e]
      · rw [hi, BTree.rb_inorder_node]
      · rw [RedNeighbour, hi]
        exact ⟨fun _ => .inl ⟨k.1, by simp [← hkr]⟩, fun _ => rfl⟩
      · intro _
        obtain ⟨k1, k2⟩ := hk hkr
        refine ⟨⟨m, by simp [Color.bl], hl, k1, by simp⟩, fun hx => ⟨⟨m, by rw [hkr, hx], hl, k1, fun _ => ⟨(hlr hx).1, ?_⟩⟩,
          (isRed_node _ _ _).2 hkr⟩⟩
        by_contra hcon
        rw [Bool.not_eq_false] at hcon
        have := k2 hcon
        rw [(hlr hx).2] at this; cases this
    · have hkb : k.2 = .black := color_ne_red.1 hkr
      by_cases hlm : ∃ y, l.inorder.getLast? = some (y, Color.red)
      · obtain ⟨y, hy⟩ := hlm
        have hln : l ≠ .nil := by rintro rfl; simp [BTree.inorder] at hy
        obtain ⟨j, l', e', hi', hj⟩ := takeMaxAll_spec l m hl hln
        have hjy : j = (y, .red) := by rw [hi', List.getLast?_append] at hy; simpa using hy
        subst hjy
        obtain ⟨k1, k2⟩ := hj rfl
        refine ⟨.node l' (y, .red) r, some .red, ?_, ?_, by simp [hln], ?_, by simp, ?_⟩
        · rw [rbChoice, hmin, hmax, hy]
          obtain ⟨k, c⟩ := k
          simp only at hkb
          subst hkb
          simp [rbTransplant, e']
        · rw [hi', BTree.rb_inorder_node]; simp
        · exact ⟨fun _ => .inr ⟨y, hy⟩, fun _ => rfl⟩
        · intro _
          refine ⟨⟨m, by simp [Color.bl], k1, hr, by simp⟩, fun hx => ⟨⟨m, by rw [hx], k1, hr, fun _ => ⟨?_, (hlr hx).2⟩⟩, rfl⟩⟩
          by_contra hcon
          rw [Bool.not_eq_false] at hcon
          have := k2 hcon
          rw [(hlr hx).1] at this; cases this
      · refine ⟨.node l k r', some .black, ?_, ?_, by simp [hrn], ?_, by simp, by simp⟩
        · have hch : rbChoice l r = .successor := by
            rw [rbChoice, hmin]
            obtain ⟨k, c⟩ := k
            simp only at hkb
            subst hkb
            rcases hl' : l.maxNode with _ | ⟨y, _ | _⟩
            · rfl
            · rfl
            · exact absurd ⟨y, by rw [← hmax, hl']⟩ hlm
          rw [hch]
          simp [rbTransplant, e, hkb]
        · rw [hi, BTree.rb_inorder_node]
        · constructor
          · intro hc; cases hc
          · rintro (⟨y, hy⟩ | hy)
            · rw [hi] at hy; simp only [List.head?_cons, Option.some.injEq] at hy
              rw [hy] at hkb; cases hkb
            · exact absurd hy hlm

theorem replace_plug (t : BTree (N × Color)) (p : List Bool) (s : BTree (N × Color)) (h : t.walk p ≠ .nil) :
    t.replace p s = plug s (t.above p) := by
  induction t generalizing p with
  | nil => rcases p with _ | ⟨_, p⟩ <;> exact absurd rfl h
  | node l w r ihl ihr =>
    rcases p with _ | ⟨_ | _, p⟩
    · rfl
    · simp only [BTree.walk] at h
      simp only [BTree.replace, BTree.above, plug_append, ← ihl p h, plug]; rfl
    · simp only [BTree.walk] at h
      simp only [BTree.replace, BTree.above, plug_append, ← ihr p h, plug]; rfl

theorem plug_isRed : ∀ (fs : List (Above N Color)) (s s' : BTree (N × Color)), fs ≠ [] →
    (plug s fs).isRed = (plug s' fs).isRed
  | [f], s, s', _ => by
    simp only [plug]
    cases f.left <;> obtain ⟨_, ⟨x, _ | _⟩, _⟩ := f <;> rfl
  | f :: g :: fs, s, s', _ => by
    rw [plug, plug]
    exact plug_isRed (g :: fs) _ _ (by simp)

end Extra
