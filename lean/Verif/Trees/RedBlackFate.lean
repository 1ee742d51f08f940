import Verif.Trees.RedBlackExact

/-!
# `RedBlackTree.remove`: what becomes of the colour invariants

`removalFate` is the specification: a table that looks at the colours around the place which becomes empty.
-/

set_option linter.unusedSectionVars false
set_option linter.unusedSimpArgs false

namespace Extra
variable {N : Type} [LinearOrder N]

/-! ## The specification -/

/-- what a removal does: the invariants are kept, or lost, or the call raises -/
inductive Fate
  | keeps
  | loses
  | raises
  deriving DecidableEq

/-- there is a red node at a place -/
def redAt (t : BTree (N × Color)) (p : List Bool) : Bool :=
  match t.at p with
  | some (_, .red) => true
  | _ => false

/-- the node at the place `s`, a sibling, has a red child that helps: any of them when the place which
becomes empty is a left one, only the right one when it is a right one -/
def helps (t : BTree (N × Color)) (b : Bool) (s : List Bool) : Bool :=
  redAt t (s ++ [true]) || (!b && redAt t (s ++ [false]))

/-- a black leaf goes from below the node at `q`, from the right if `b` -/
def leafFate (t : BTree (N × Color)) (q : List Bool) (b : Bool) : Fate :=
  let s := q ++ [!b]
  if redAt t s then (if helps t b (s ++ [b]) then .keeps else .loses)
  else if helps t b s then .keeps
  else if redAt t q then .loses
  else if q ≠ [] then .raises
  else if redAt t (s ++ [false]) then .loses
  else .keeps

/-- the number of the black node at `p` is removed and the place `g` becomes empty -/
def removalFate (t : BTree (N × Color)) (p g : List Bool) : Fate :=
  if t.at (g ++ [true]) ≠ none then .loses
  else if g = p ++ [true] then (if redAt t (p ++ [false]) then .loses else .raises)
  else leafFate t g.dropLast (g.getLastD false)

/-- the place where the next number is found: that of the node itself if it is a leaf, otherwise one step
to the right and then left as far as possible -/
def GivesWay (t : BTree (N × Color)) (p g : List Bool) : Prop :=
  (g = p ∧ t.at (p ++ [false]) = none ∧ t.at (p ++ [true]) = none) ∨
  ∃ k, g = p ++ true :: List.replicate k false ∧ t.at g ≠ none ∧ t.at (g ++ [false]) = none

/-! ## Proofs -/

def Outcome (e : Except Err (BTree (N × Color))) : Fate → Prop
  | .keeps => ∃ u, e = .ok u ∧ RedBlackOk u.blacken
  | .loses => ∃ u, e = .ok u ∧ ¬ RedBlackOk u.blacken
  | .raises => e = .error .attributeError

def helpers (b : Bool) : BTree (N × Color) → Bool
  | .nil => false
  | .node a _ c => c.isRed || (!b && a.isRed)

def nearer (b : Bool) : BTree (N × Color) → BTree (N × Color)
  | .nil => .nil
  | .node a _ c => if b then c else a

def leftRed : BTree (N × Color) → Bool
  | .nil => false
  | .node a _ _ => a.isRed

def fateAt (b : Bool) (c : Color) (top : Bool) (s : BTree (N × Color)) : Fate :=
  if s.isRed then (if helpers b (nearer b s) then .keeps else .loses)
  else if helpers b s then .keeps
  else if c = .red then .loses
  else if top = false then .raises
  else if leftRed s then .loses
  else .keeps

theorem plug_sub_rb : ∀ (fs : List (Above N Color)) (s : BTree (N × Color)) {n : Nat}, rbI (plug s fs) n →
    ∃ m, rbI s m
  | [], _, n, h => ⟨n, h⟩
  | f :: fs, s, n, h => by
    obtain ⟨m, h⟩ := plug_sub_rb fs _ h
    cases hl : f.left <;> rw [hl] at h <;> obtain ⟨k, -, h1, h2, -⟩ := h
    · exact ⟨k, h2⟩
    · exact ⟨k, h1⟩

theorem plug_blacken : ∀ (fs : List (Above N Color)), fs ≠ [] →
    ∃ fs' : List (Above N Color), ∀ s : BTree (N × Color), (plug s fs).blacken = plug s fs'
  | [f], _ => by
    refine ⟨[⟨f.left, (f.w.1, .black), f.other⟩], fun s => ?_⟩
    simp only [plug]
    cases f.left <;> rfl
  | f :: g :: fs, _ => by
    obtain ⟨fs', h⟩ := plug_blacken (g :: fs) (by simp)
    refine ⟨f :: fs', fun s => ?_⟩
    rw [plug, h, plug]

theorem bad_below {fs : List (Above N Color)} {s : BTree (N × Color)} (hf : fs ≠ [])
    (h : ∀ n, ¬ rbI s n) : ¬ RedBlackOk (plug s fs).blacken := by
  rw [redBlackOk_iff]
  rintro ⟨⟨n, hn⟩, -⟩
  obtain ⟨fs', e⟩ := plug_blacken fs hf
  rw [e] at hn
  obtain ⟨m, hm⟩ := plug_sub_rb _ _ hn
  exact h m hm

theorem good_above {fs : List (Above N Color)} {s : BTree (N × Color)} {m : Nat} (hc : ctxOk fs m)
    (h : rbI s m) (hr : s.isRed = true → fs = [] ∨ headBlack fs) : RedBlackOk (plug s fs).blacken := by
  obtain ⟨n, hn⟩ := plug_rb fs s m h hc hr
  refine (redBlackOk_iff _).2 ⟨blacken_rbI hn, ?_⟩
  cases plug s fs <;> rfl


theorem attach_cons (f : Above N Color) (fs) (c : N) : attachOk (f :: fs) c = sideOk f c := rfl

local macro "run" : tactic => `(tactic| simp [rbRounds, rbDouble, dbStops, dbIsLeft, rbLeft, rbRight, rbFixRight,
  rbFixLeft, BTree.isRed, fateAt, helpers, nearer, leftRed, Outcome, bind, Except.bind, pure, Except.pure,
  BTree.blacken, sideOk, attach_cons, *])

theorem left_leaf (w : N) (x : N × Color) (R : BTree (N × Color)) (fs : List (Above N Color)) (m : Nat)
    (h : rbI (.node (.node .nil (w, .black) .nil) x R) m) (hc : ctxOk fs m)
    (hx : x.2 = .red → headBlack fs) (hs : (plug (.node .nil x R) fs).keys.Pairwise (· < ·)) :
    Outcome (rbDouble rbRounds .nil x R fs .none) (fateAt false x.2 fs.isEmpty R) := by
  have att : ∀ y ∈ (BTree.node .nil x R).keys, attachOk fs y = true := fun y hy => sorted_attach hs hy
  have sor := plug_sorted hs
  obtain ⟨k, rfl, ⟨k', hk', hk0, -, -⟩, hR, hxr⟩ := h
  have : k' = 0 := hk0
  subst this
  have : k = 1 := by simpa [Color.bl] using hk'
  subst this
  clear hk' hk0 hs
  have hx' : x.2 = .red → fs = [] ∨ headBlack fs := fun e => .inr (hx e)
  obtain ⟨x, cx⟩ := x
  rcases R with _ | ⟨A, ⟨s, cs⟩, B⟩
  · cases hR
  have good := fun s h h' => @good_above N _ fs s _ hc h h'
  cases cs with
  | black =>
    obtain ⟨k, e, hA, hB, -⟩ := hR
    have : k = 0 := by simpa [Color.bl] using e
    subst this
    clear e
    rcases rbI_zero hA with rfl | ⟨a, rfl⟩ <;> rcases rbI_zero hB with rfl | ⟨b, rfl⟩
    · clear good sor att
      cases cx with
      | red =>
        obtain ⟨g, gs, rfl, -⟩ := hx rfl
        clear hc hx hx' hxr
        run
        exact bad_below (by simp) (by simp [rbI, BTree.isRed])
      | black =>
        clear hx hx'
        cases fs with
        | nil =>
          run
          exact (redBlackOk_iff _).2 ⟨⟨1, by simp [plug, rbI, BTree.isRed, BTree.blacken, Color.bl]⟩, rfl⟩
        | cons f fs => run
    · have h1 := att s (by simp)
      clear att hx hA hB hxr hc sor
      run
      refine good _ ?_ (fun e => hx' (by simpa [isRed_node] using e))
      simp [rbI, BTree.isRed, Color.bl]
    · have h1 := att a (by simp)
      have h2 : x ≤ a := by simp [sorted_node] at sor; exact sor.1.1.le
      clear att hx hA hB hxr hc sor
      run
      refine good _ ?_ (fun e => hx' (by simpa [isRed_node] using e))
      simp [rbI, BTree.isRed, Color.bl]
    · have h1 := att s (by simp)
      clear att hx hA hB hxr hc sor
      run
      refine good _ ?_ (fun e => hx' (by simpa [isRed_node] using e))
      simp [rbI, BTree.isRed, Color.bl]
  | red =>
    obtain ⟨k, e, hA, hB, hAB⟩ := hR
    have : k = 1 := by simpa [Color.bl] using e.symm
    subst this
    clear e
    have hcx : cx = .black := by
      by_contra hcon
      have := (hxr (by cases cx <;> simp_all)).2
      cases this
    subst hcx
    obtain ⟨hAr, hBr⟩ := hAB rfl
    rcases A with _ | ⟨aa, ⟨u, cu⟩, ab⟩
    · cases hA
    rw [isRed_node_false] at hAr
    simp only at hAr
    subst hAr
    obtain ⟨k, e, haa, hab, -⟩ := hA
    have : k = 0 := by simpa [Color.bl] using e
    subst this
    clear e
    rcases rbI_zero haa with rfl | ⟨a, rfl⟩ <;> rcases rbI_zero hab with rfl | ⟨b, rfl⟩
    · have h1 := att s (by simp)
      clear good att sor haa hab hxr hx hx' hAB hc
      run
      exact bad_below (by simp) (by simp [rbI, BTree.isRed])
    · have h1 := att s (by simp)
      have h2 : u < s := by simp [sorted_node] at sor; exact sor.2.1.2.1
      clear att sor haa hab hxr hx hx' hAB hc
      run
      refine good (.node _ (s, .black) B) ?_ (by simp [BTree.isRed])
      simp [rbI, BTree.isRed, Color.bl, hB]
    · have h1 := att s (by simp)
      have h2 : a < s := by simp [sorted_node] at sor; exact sor.2.1.2.1
      have h3 : x ≤ a := by simp [sorted_node] at sor; exact sor.1.1.le
      clear att sor haa hab hxr hx hx' hAB hc
      run
      refine good (.node _ (s, .black) B) ?_ (by simp [BTree.isRed])
      simp [rbI, BTree.isRed, Color.bl, hB]
    · have h1 := att s (by simp)
      have h2 : u < s := by simp [sorted_node] at sor; exact sor.2.2.1.2.1
      clear att sor haa hab hxr hx hx' hAB hc
      run
      refine good (.node _ (s, .black) B) ?_ (by simp [BTree.isRed])
      simp [rbI, BTree.isRed, Color.bl, hB]

theorem right_leaf (w : N) (x : N × Color) (L : BTree (N × Color)) (fs : List (Above N Color)) (m : Nat)
    (h : rbI (.node L x (.node .nil (w, .black) .nil)) m) (hc : ctxOk fs m)
    (hx : x.2 = .red → headBlack fs) (hs : (plug (.node L x .nil) fs).keys.Pairwise (· < ·)) :
    Outcome (rbDouble rbRounds L x .nil fs .none) (fateAt true x.2 fs.isEmpty L) := by
  have att : ∀ y ∈ (BTree.node L x .nil).keys, attachOk fs y = true := fun y hy => sorted_attach hs hy
  have sor := plug_sorted hs
  obtain ⟨k, rfl, hR, ⟨k', hk', hk0, -, -⟩, hxr⟩ := h
  have : k' = 0 := hk0
  subst this
  have : k = 1 := by simpa [Color.bl] using hk'
  subst this
  clear hk' hk0 hs
  have hx' : x.2 = .red → fs = [] ∨ headBlack fs := fun e => .inr (hx e)
  obtain ⟨x, cx⟩ := x
  rcases L with _ | ⟨A, ⟨s, cs⟩, B⟩
  · cases hR
  have good := fun s h h' => @good_above N _ fs s _ hc h h'
  cases cs with
  | black =>
    obtain ⟨k, e, hA, hB, -⟩ := hR
    have : k = 0 := by simpa [Color.bl] using e
    subst this
    clear e
    rcases rbI_zero hB with rfl | ⟨b, rfl⟩
    · have h1 := att s (by simp)
      clear good sor att
      cases cx with
      | red =>
        obtain ⟨g, gs, rfl, -⟩ := hx rfl
        clear hc hx hx' hxr
        run
        exact bad_below (by simp) (by simp [rbI, BTree.isRed])
      | black =>
        clear hx hx'
        cases fs with
        | nil =>
          rcases rbI_zero hA with rfl | ⟨a, rfl⟩
          · run
            exact (redBlackOk_iff _).2 ⟨⟨1, by simp [plug, rbI, BTree.isRed, BTree.blacken, Color.bl]⟩, rfl⟩
          · clear hxr
            run
            intro h
            obtain ⟨⟨n, h⟩, -⟩ := (redBlackOk_iff _).1 h
            simp [plug, rbI, BTree.isRed] at h
        | cons f fs =>
          clear hxr hc
          rcases rbI_zero hA with rfl | ⟨a, rfl⟩
          · rw [attach_cons] at h1
            unfold sideOk at h1
            run
          · rw [attach_cons] at h1
            unfold sideOk at h1
            run
    · rcases rbI_zero hA with rfl | ⟨a, rfl⟩
      · have h1 := att b (by simp)
        have h2 : b < x := by simp [sorted_node] at sor; exact sor.2
        clear att hx hA hB hxr hc sor
        run
        refine good _ ?_ (fun e => hx' (by simpa [isRed_node] using e))
        simp [rbI, BTree.isRed, Color.bl]
      · have h1 := att s (by simp)
        clear att hx hA hB hxr hc sor
        run
        refine good _ ?_ (fun e => hx' (by simpa [isRed_node] using e))
        simp [rbI, BTree.isRed, Color.bl]
  | red =>
    obtain ⟨k, e, hA, hB, hAB⟩ := hR
    have : k = 1 := by simpa [Color.bl] using e.symm
    subst this
    clear e
    have hcx : cx = .black := by
      by_contra hcon
      have := (hxr (by cases cx <;> simp_all)).1
      cases this
    subst hcx
    obtain ⟨hAr, hBr⟩ := hAB rfl
    rcases B with _ | ⟨ba, ⟨u, cu⟩, bb⟩
    · cases hB
    rw [isRed_node_false] at hBr
    simp only at hBr
    subst hBr
    obtain ⟨k, e, hba, hbb, -⟩ := hB
    have : k = 0 := by simpa [Color.bl] using e
    subst this
    clear e
    have h1 := att s (by simp)
    rcases rbI_zero hbb with rfl | ⟨b, rfl⟩
    · clear good att sor hba hbb hxr hx hx' hAB hc
      run
      exact bad_below (by simp) (by simp [rbI, BTree.isRed])
    · rcases rbI_zero hba with rfl | ⟨a, rfl⟩
      · have h2 : b < x := by
          simp at sor
          have := (List.pairwise_append.1 sor).2.1
          simp at this
          exact this.2.2
        have h3 : s ≤ b := by
          simp at sor
          have := (List.pairwise_append.1 sor).2.1
          simp at this
          exact this.1.2.1.le
        clear att sor hba hbb hxr hx hx' hAB hc
        run
        refine good (.node A (s, .black) _) ?_ (by simp [BTree.isRed])
        simp [rbI, BTree.isRed, Color.bl, hA]
      · have h2 : s ≤ u := by
          simp at sor
          have := (List.pairwise_append.1 sor).2.1
          simp at this
          exact this.1.2.1.le
        clear att sor hba hbb hxr hx hx' hAB hc
        run
        refine good (.node A (s, .black) _) ?_ (by simp [BTree.isRed])
        simp [rbI, BTree.isRed, Color.bl, hA]

/-! ## The place which becomes empty -/

theorem takeMin_walk (r : BTree (N × Color)) : ∀ a b c w rr, r = .node (.node a b c) w rr →
    ∃ k m d x R r', r.minPath = List.replicate k false ++ [false] ∧
      r.walk (List.replicate k false) = .node (.node .nil m d) x R ∧ r.takeMinAll = some (m, r') ∧
      r'.walk (List.replicate k false) = .node (BTree.node .nil m d).sinkAll x R ∧
      r'.above (List.replicate k false) = r.above (List.replicate k false) := by
  induction r with
  | nil => intro a b c w rr e; cases e
  | node l w r ihl _ =>
    intro a b c w' rr e
    cases e
    cases a with
    | nil =>
      exact ⟨0, b, c, w, r, .node (BTree.node .nil b c).sinkAll w r, rfl, rfl, rfl, rfl, rfl⟩
    | node a1 a2 a3 =>
      obtain ⟨k, m, d, x, R, r', h1, h2, h3, h4, h5⟩ := ihl _ _ _ _ _ rfl
      refine ⟨k + 1, m, d, x, R, .node r' w r, ?_, ?_, ?_, ?_, ?_⟩
      · rw [BTree.minPath, h1, List.replicate_succ]; rfl
      · rw [List.replicate_succ, BTree.walk, h2]
      · rw [BTree.takeMinAll, h3]
      · rw [List.replicate_succ, BTree.walk, h4]
      · rw [List.replicate_succ, BTree.above, BTree.above, h5]

theorem minPath_unique (r : BTree (N × Color)) : ∀ k, r.sub (List.replicate k false) ≠ .nil →
    r.sub (List.replicate k false ++ [false]) = .nil → r.minPath = List.replicate k false := by
  induction r with
  | nil => intro k h; cases k <;> exact absurd rfl h
  | node l w r ihl _ =>
    intro k h1 h2
    cases k with
    | zero =>
      have : l = .nil := by cases l <;> simp [BTree.sub] at h2 ⊢
      subst this
      rfl
    | succ k =>
      rw [List.replicate_succ] at h1 h2 ⊢
      have h1' : l.sub (List.replicate k false) ≠ .nil := by simpa [BTree.sub] using h1
      have h2' : l.sub (List.replicate k false ++ [false]) = .nil := by simpa [BTree.sub] using h2
      have := ihl k h1' h2'
      cases l with
      | nil => cases k <;> exact absurd rfl h1'
      | node a b c => rw [BTree.minPath, this]

theorem rb_above_append (t : BTree (N × Color)) : ∀ (p q : List Bool),
    t.above (p ++ q) = (t.walk p).above q ++ t.above p := by
  induction t with
  | nil =>
    intro p q
    rcases p with _ | ⟨_, p⟩
    · simp [BTree.walk, BTree.above]
    · simp [BTree.walk, BTree.above]
  | node l w r ihl ihr =>
    intro p q
    rcases p with _ | ⟨_ | _, p⟩
    · simp [BTree.walk, BTree.above]
    · simp [BTree.walk, BTree.above, ihl p q]
    · simp [BTree.walk, BTree.above, ihr p q]

theorem rb_replace_above (t : BTree (N × Color)) (s : BTree (N × Color)) (hs : s ≠ .nil) :
    ∀ (p : List Bool), t.walk p ≠ .nil → (t.replace p s).above p = t.above p := by
  induction t with
  | nil => intro p h; rcases p with _ | ⟨_, p⟩ <;> exact absurd rfl h
  | node l w r ihl ihr =>
    intro p h
    rcases p with _ | ⟨_ | _, p⟩
    · cases s
      · exact absurd rfl hs
      · rfl
    · simp only [BTree.replace, BTree.above, ihl p h]
    · simp only [BTree.replace, BTree.above, ihr p h]

theorem rb_replace_append (t : BTree (N × Color)) (s : BTree (N × Color)) : ∀ (p q : List Bool),
    t.walk p ≠ .nil → t.replace (p ++ q) s = t.replace p ((t.walk p).replace q s) := by
  induction t with
  | nil => intro p q h; rcases p with _ | ⟨_, p⟩ <;> exact absurd rfl h
  | node l w r ihl ihr =>
    intro p q h
    rcases p with _ | ⟨_ | _, p⟩
    · rfl
    · simp only [List.cons_append, BTree.replace, BTree.walk, ihl p q h]
    · simp only [List.cons_append, BTree.replace, BTree.walk, ihr p q h]

theorem above_isEmpty (t : BTree (N × Color)) (p : List Bool) (h : t.walk p ≠ .nil) :
    (t.above p).isEmpty = decide (p = []) := by
  rcases t with _ | ⟨l, w, r⟩ <;> rcases p with _ | ⟨_ | _, p⟩ <;> simp [BTree.above, BTree.walk] at h ⊢

theorem redAt_walk (t : BTree (N × Color)) (q u : List Bool) : redAt t (q ++ u) = ((t.walk q).walk u).isRed := by
  rw [← walk_append, walk_eq_sub]
  unfold redAt BTree.at
  rcases t.sub (q ++ u) with _ | ⟨_, ⟨_, _ | _⟩, _⟩ <;> rfl

/-- no colour for the top node makes it a tree with equally many black nodes on each path -/
theorem bad_uneven {fs : List (Above N Color)} {l r : BTree (N × Color)} {x : N × Color} {n m : Nat}
    (hl : rbI l n) (hr : rbI r m) (h : n ≠ m) : ¬ RedBlackOk (plug (.node l x r) fs).blacken := by
  have hbad : ∀ y k, ¬ rbI (.node l y r) k := by
    rintro y k ⟨j, -, h1, h2, -⟩
    exact h ((blI_unique (rbI_blI hl) (rbI_blI h1)).trans (blI_unique (rbI_blI h2) (rbI_blI hr)))
  cases fs with
  | nil =>
    rw [redBlackOk_iff]
    rintro ⟨⟨k, hk⟩, -⟩
    exact hbad _ k hk
  | cons f fs => exact bad_below (by simp) (hbad x)

theorem fateAt_eq (t : BTree (N × Color)) (q : List Bool) (L : BTree (N × Color)) (x R)
    (h : t.walk q = .node L x R) (b : Bool) :
    fateAt b x.2 (t.above q).isEmpty (if b then L else R) = leafFate t q b := by
  have hr : redAt t q = decide (x.2 = .red) := by
    have := redAt_walk t q []
    rw [List.append_nil] at this
    rw [this, h]
    obtain ⟨x, _ | _⟩ := x <;> rfl
  have hs : ∀ u, redAt t (q ++ [!b] ++ u) = ((if b then L else R).walk u).isRed := by
    intro u
    rw [List.append_assoc, redAt_walk, h]
    cases b <;> rfl
  have hs0 : redAt t (q ++ [!b]) = (if b then L else R).isRed := by
    have := hs []
    rw [List.append_nil] at this
    rw [this]
    cases (if b then L else R) <;> rfl
  have hs1 : ∀ c, redAt t (q ++ [!b] ++ [b] ++ [c]) = ((if b then L else R).walk [b, c]).isRed := by
    intro c; rw [← hs]; simp
  rw [above_isEmpty t q (by rw [h]; simp)]
  unfold leafFate fateAt helps
  simp only [hr, hs, hs0, hs1]
  generalize (if b then L else R) = S
  have e1 : helpers b S = ((S.walk [true]).isRed || !b && (S.walk [false]).isRed) := by
    cases S <;> cases b <;> simp [helpers, BTree.walk, BTree.isRed]
  have e2 : helpers b (nearer b S) = ((S.walk [b, true]).isRed || !b && (S.walk [b, false]).isRed) := by
    rcases S with _ | ⟨A, s, B⟩
    · cases b <;> rfl
    · cases b
      · cases A <;> simp [helpers, nearer, BTree.walk, BTree.isRed]
      · cases B <;> simp [helpers, nearer, BTree.walk, BTree.isRed]
  have e3 : leftRed S = (S.walk [false]).isRed := by cases S <;> simp [leftRed, BTree.walk, BTree.isRed]
  rw [e1, e2, e3]
  by_cases hq : q = [] <;> simp [hq]

/-! ## The last case of `remove` -/

def Final (e : Except Err (BTree (N × Color))) : Fate → Prop
  | .keeps => ∃ u, e = .ok u ∧ RedBlackOk u
  | .loses => ∃ u, e = .ok u ∧ ¬ RedBlackOk u
  | .raises => e = .error .attributeError

theorem Outcome.final {e : Except Err (BTree (N × Color))} {f : Fate} (h : Outcome e f) :
    Final (do let u ← e; pure u.blacken) f := by
  cases f
  · obtain ⟨u, rfl, h⟩ := h; exact ⟨_, rfl, h⟩
  · obtain ⟨u, rfl, h⟩ := h; exact ⟨_, rfl, h⟩
  · cases h; rfl

theorem case3_leaf (t : BTree (N × Color)) (n : Nat) (hn : rbI t n) (hroot : t.isRed = false)
    (hk : t.keys.Pairwise (· < ·)) (v : N) (q : List Bool) (b : Bool)
    (hw : t.walk (q ++ [b]) = .node .nil (v, .black) .nil) :
    Final (rbCase3 v t (q ++ [b]) .nil .nil .none .nil) (leafFate t q b) := by
  obtain ⟨L, x, R, hq⟩ : ∃ L x R, t.walk q = .node L x R := by
    rw [walk_append] at hw
    rcases h : t.walk q with _ | ⟨L, x, R⟩
    · rw [h] at hw; cases hw
    · exact ⟨_, _, _, rfl⟩
  have hqn : t.walk q ≠ .nil := by rw [hq]; simp
  obtain ⟨m, hm, hctx, hhead⟩ := descend_rb t q [] n hn trivial (by simp [hroot])
  rw [List.append_nil] at hctx hhead
  rw [hq] at hm hhead
  rw [isRed_node] at hhead
  have hnew : ((t.replace (q ++ [b]) .nil).keys).Pairwise (· < ·) := by
    obtain ⟨A, B, e1, e2⟩ := replace_keys t (q ++ [b]) (by rw [hw]; simp)
    rw [e2]
    rw [e1] at hk
    refine hk.sublist ?_
    simp
  rw [← fateAt_eq t q L x R hq b]
  unfold rbCase3
  simp only [rbReplacementPath, List.append_nil, List.dropLast_concat, descend_eq]
  rw [rb_replace_append _ _ _ _ hqn, hq] at hnew ⊢
  rw [walk_append, hq] at hw
  cases b with
  | false =>
    simp only [BTree.replace, BTree.walk] at hw hnew ⊢
    have : L = .node .nil (v, .black) .nil := by cases L <;> exact hw
    subst this
    rw [replace_walk _ _ _ hqn, rb_replace_above _ _ (by simp) _ hqn]
    rw [replace_plug _ _ _ hqn] at hnew
    exact (left_leaf v x R _ m hm hctx hhead hnew).final
  | true =>
    simp only [BTree.replace, BTree.walk] at hw hnew ⊢
    have : R = .node .nil (v, .black) .nil := by cases R <;> exact hw
    subst this
    rw [replace_walk _ _ _ hqn, rb_replace_above _ _ (by simp) _ hqn]
    rw [replace_plug _ _ _ hqn] at hnew
    exact (right_leaf v x L _ m hm hctx hhead hnew).final

theorem choice_successor (l r : BTree (N × Color)) (hn : ¬ RedNeighbour l r) (hr : r ≠ .nil) :
    rbChoice l r = .successor := by
  have hmin := rb_minNode r
  have hmax := rb_maxNode l
  unfold rbChoice
  rcases e1 : r.minNode with _ | ⟨y, _ | _⟩
  · rw [e1] at hmin
    have := List.head?_eq_none_iff.1 hmin.symm
    cases r with
    | nil => exact absurd rfl hr
    | node a b c => simp [BTree.rb_inorder_node] at this
  · rcases e2 : l.maxNode with _ | ⟨z, _ | _⟩
    · rfl
    · rfl
    · exact absurd (.inr ⟨z, by rw [← hmax, e2]⟩) hn
  · rfl

theorem at_walk (t : BTree (N × Color)) (p : List Bool) : t.at p = (t.walk p).root? := by
  rw [walk_eq_sub]; rfl

theorem case3_inner (t : BTree (N × Color)) (n : Nat) (hn : rbI t n) (hroot : t.isRed = false)
    (hk : t.keys.Pairwise (· < ·)) (v : N) (p : List Bool) (l r : BTree (N × Color))
    (hw : t.walk p = .node l (v, .black) r) (hnr : ¬ RedNeighbour l r) (hr : r ≠ .nil) :
    ∃ s, rbTransplant l r (rbChoice l r) = some (s, some .black) ∧
      Final (rbCase3 v t p l r (rbChoice l r) s) (removalFate t p (p ++ true :: r.minPath)) := by
  have hpn : t.walk p ≠ .nil := by rw [hw]; simp
  obtain ⟨M, hm, hctx, -⟩ := descend_rb t p [] n hn trivial (by simp [hroot])
  rw [List.append_nil] at hctx
  rw [hw] at hm
  obtain ⟨M', rfl, hl, hri, -⟩ := hm
  rw [choice_successor l r hnr hr]
  obtain ⟨m, r', e, hi, -⟩ := takeMinAll_spec r M' hri hr
  have hmb : m.2 = .black := by
    by_contra hc
    refine hnr (.inl ⟨m.1, ?_⟩)
    rw [hi, List.head?_cons]
    congr 1
    refine Prod.ext rfl ?_
    cases h : m.2
    · exact absurd h hc
    · rfl
  refine ⟨.node l m r', by simp [rbTransplant, e, hmb], ?_⟩
  have hnew : ((t.replace p (.node l m r')).keys).Pairwise (· < ·) := by
    obtain ⟨A, B, e1, e2⟩ := replace_keys t p hpn
    rw [e2]
    rw [e1, hw] at hk
    refine hk.sublist ?_
    have : r.keys = m.1 :: r'.keys := by simp [BTree.keys, hi]
    simp [BTree.keys_node, this]
  have hkr : t.keys.Pairwise (· < ·) := hk
  have hvr : ∀ y ∈ r.keys, v < y := by
    obtain ⟨A, B, e1, -⟩ := replace_keys t p hpn
    rw [e1, hw] at hk
    exact (sorted_node.1 (List.pairwise_append.1 (List.pairwise_append.1 hk).1).2.1).2.2.2
  have hrs : r.keys.Pairwise (· < ·) := by
    obtain ⟨A, B, e1, -⟩ := replace_keys t p hpn
    rw [e1, hw] at hk
    exact (sorted_node.1 (List.pairwise_append.1 (List.pairwise_append.1 hk).1).2.1).2.1
  have hatp : ∀ u, t.at (p ++ true :: u) = (r.walk u).root? := by
    intro u; rw [at_walk, walk_append, hw]; rfl
  have hatl : redAt t (p ++ [false]) = l.isRed := by
    rw [redAt_walk, hw]; cases l <;> rfl
  unfold rbCase3
  simp only [rbReplacementPath, descend_eq, List.append_nil]
  rcases r with _ | ⟨_ | ⟨a, b, c⟩, w, rr⟩
  · exact absurd rfl hr
  · -- the right child is the next one
    cases e
    simp only [BTree.minPath, List.dropLast_concat]
    rw [replace_walk _ _ _ hpn, rb_replace_above _ _ (by simp) _ hpn]
    have hdata : (t.replace p (.node l m (BTree.node .nil m rr).sinkAll)).dataAt (p ++ [true]) =
        ((BTree.node .nil m rr).sinkAll.root?).map (·.1) := by
      rw [BTree.dataAt, walk_append, replace_walk _ _ _ hpn]
      simp only [BTree.walk]
      cases (BTree.node .nil m rr).sinkAll <;> rfl
    rw [hdata]
    unfold removalFate
    have hat : t.at (p ++ [true] ++ [true]) = rr.root? := by
      have := hatp [true]
      rw [List.append_assoc]
      rw [show [true] ++ [true] = true :: [true] from rfl, this]
      cases rr <;> rfl
    rw [hat, if_pos rfl, hatl]
    obtain ⟨j, e3, h0, hrr, -⟩ := hri
    have : j = 0 := h0
    subst this
    rw [hmb] at e3
    have : M' = 1 := by simpa [Color.bl] using e3
    subst this
    have hlt : v < m.1 := hvr _ (by simp)
    rcases rbI_zero hrr with rfl | ⟨z, rfl⟩
    · simp only [BTree.sinkAll, BTree.root?, Option.map_none, Option.getD_none, ne_eq, not_true_eq_false, if_false]
      unfold rbDbn
      simp only [hlt, if_true]
      cases l with
      | nil => cases hl
      | node la lx lb =>
        simp only
        by_cases hred : (BTree.node la lx lb).isRed = true
        · rw [if_pos hred]
          refine Outcome.final (f := .loses) ⟨_, ?_, bad_uneven (fs := t.above p) (x := m) hl (n := 1) (m := 0) (show rbI .nil 0 from rfl) (by simp)⟩
          · rw [rbRounds, rbDouble, if_pos (by simpa [dbStops] using hred)]
        · rw [if_neg hred]
          refine Outcome.final (f := .raises) ?_
          show _ = _
          rw [rbRounds, rbDouble, if_neg (by simpa [dbStops] using hred)]
          simp [dbIsLeft, rbLeft, rbFixLeft, bind, Except.bind]
    · have hmz : m.1 < z := by
        have := (sorted_node.1 hrs).2.2.2 z (by simp)
        exact this
      rw [if_pos (by simp [BTree.root?])]
      refine Outcome.final (f := .loses) ⟨_, ?_, bad_uneven (fs := t.above p) (x := m) hl (n := 1) (m := 0)
        (r := .node .nil (z, .red) .nil)
        (by simp [rbI, Color.bl, BTree.isRed]) (by simp)⟩
      simp only [BTree.sinkAll, BTree.root?, Option.map_some, Option.getD_some]
      unfold rbDbn
      simp only [not_lt.2 hmz.le, if_false]
      rw [rbRounds, rbDouble, if_pos (by simp [dbStops, BTree.isRed])]
  · -- the next one is further down
    obtain ⟨k, m2, d, x, R, r2, h1, h2, h3, h4, h5⟩ := takeMin_walk _ a b c w rr rfl
    rw [h3] at e
    cases e
    have hq : p ++ true :: (BTree.node (.node a b c) w rr).minPath =
        (p ++ true :: List.replicate k false) ++ [false] := by rw [h1]; simp
    rw [hq, List.dropLast_concat]
    have hwq : t.walk (p ++ true :: List.replicate k false) = .node (.node .nil m d) x R := by
      rw [walk_append, hw]; exact h2
    have hwq' : (t.replace p (.node l m r')).walk (p ++ true :: List.replicate k false) =
        .node (BTree.node .nil m d).sinkAll x R := by
      rw [walk_append, replace_walk _ _ _ hpn]; exact h4
    have hab : (t.replace p (.node l m r')).above (p ++ true :: List.replicate k false) =
        (BTree.node (.node a b c) w rr).above (List.replicate k false) ++ ⟨false, m, l⟩ :: t.above p := by
      rw [rb_above_append, replace_walk _ _ _ hpn, rb_replace_above _ _ (by simp) _ hpn, BTree.above, h5]
      simp
    have hne : (t.replace p (.node l m r')).walk (p ++ true :: List.replicate k false) ≠ .nil := by
      rw [hwq']; simp
    have hplug := plug_above _ _ hne
    obtain ⟨J, hJ, hJc, hJh⟩ := descend_rb _ (List.replicate k false) (⟨false, m, l⟩ :: t.above p) M' hri
      ⟨hl, (fun h => by rw [hmb] at h; cases h), (by rw [hmb]; exact hctx)⟩ (fun _ => ⟨_, _, rfl, hmb⟩)
    rw [← hab] at hJc hJh
    rw [h2] at hJ hJh
    rw [isRed_node] at hJh
    rw [hwq'] at hplug ⊢
    have hfate : removalFate t p (p ++ true :: List.replicate k false ++ [false]) =
        if d.root? ≠ none then .loses else leafFate t (p ++ true :: List.replicate k false) false := by
      unfold removalFate
      have e1 : t.at (p ++ true :: List.replicate k false ++ [false] ++ [true]) = d.root? := by
        rw [at_walk, List.append_assoc, walk_append, hwq]
        cases d <;> rfl
      rw [e1, List.dropLast_concat]
      congr 1
      rw [if_neg]
      · congr 1
        rw [List.getLastD_concat]
      · intro h
        have := congrArg List.length h
        simp at this
    rw [hfate, ← fateAt_eq t _ _ x R hwq, above_isEmpty t _ (by rw [hwq]; simp), ← above_isEmpty _ _ hne]
    generalize hfs : (t.replace p (.node l m r')).above (p ++ true :: List.replicate k false) = fs at *
    have hdata : (t.replace p (.node l m r')).dataAt (p ++ true :: List.replicate k false ++ [false]) =
        ((BTree.node .nil m d).sinkAll.root?).map (·.1) := by
      rw [BTree.dataAt, walk_append, hwq']
      simp only [BTree.walk]
      cases (BTree.node .nil m d).sinkAll <;> rfl
    rw [hdata]
    have hxr : x.1 ∈ (BTree.node (.node a b c) w rr).keys ∧ (∀ y ∈ d.keys, y < x.1) := by
      obtain ⟨A, B, e1, -⟩ := replace_keys (BTree.node (.node a b c) w rr) (List.replicate k false)
        (by rw [h2]; simp)
      rw [h2] at e1
      refine ⟨by rw [e1]; simp, fun y hy => ?_⟩
      rw [e1] at hrs
      exact (sorted_node.1 (List.pairwise_append.1 (List.pairwise_append.1 hrs).1).2.1).2.2.1 y (by simp [hy])
    have hvx : v < x.1 := hvr _ hxr.1
    have hJ' := hJ
    obtain ⟨j, rfl, ⟨j', ej, h0, hd, -⟩, hR, -⟩ := hJ
    have : j' = 0 := h0
    subst this
    rw [hmb] at ej
    have : j = 1 := by simpa [Color.bl] using ej
    subst this
    rcases rbI_zero hd with rfl | ⟨z, rfl⟩
    · rw [if_neg (by simp [BTree.root?])]
      simp only [BTree.sinkAll, BTree.root?, Option.map_none, Option.getD_none]
      unfold rbDbn
      simp only [hvx, if_true]
      obtain ⟨m, cm⟩ := m
      simp only at hmb
      subst hmb
      refine (left_leaf m x R fs _ hJ' hJc hJh ?_).final
      rw [show BTree.node .nil x R = .node (BTree.node .nil (m, .black) .nil).sinkAll x R from rfl, hplug]
      exact hnew
    · have hzx : z < x.1 := hxr.2 z (by simp)
      rw [if_pos (by simp [BTree.root?])]
      refine Outcome.final (f := .loses) ⟨_, ?_, bad_uneven (fs := fs) (x := x) (n := 0) (m := 1)
        (l := .node .nil (z, .red) .nil)
        (by simp [rbI, Color.bl, BTree.isRed]) hR (by simp)⟩
      simp only [BTree.sinkAll, BTree.root?, Option.map_some, Option.getD_some]
      unfold rbDbn
      simp only [hzx, if_true]
      rw [rbRounds, rbDouble, if_pos (by simp [dbStops, BTree.isRed])]

end Extra
