import Verif.Trees.NodeSet
import Verif.Trees.PtrRep

/-!
# Lemmas about the setters of nodes

For C92.
-/

set_option linter.unusedSectionVars false

namespace Extra
variable {N X V : Type} [LinearOrder N]

/-- Links come in pairs: a child has its parent's link, and a parent has its child's, on one side. -/
def LinksAgree (nd : Addr → Option (PNode N X)) : Prop :=
  ∀ a n, nd a = some n →
    (∀ c, n.left = some c → ∃ m, nd c = some m ∧ m.parent = some a) ∧
    (∀ c, n.right = some c → ∃ m, nd c = some m ∧ m.parent = some a) ∧
    (∀ p, n.parent = some p → ∃ m, nd p = some m ∧ (m.left = some a ∨ m.right = some a)) ∧
    (∀ c, n.left = some c → n.right ≠ some c)

/-- the extension of the node a link leads to -/
def extAt (nd : Addr → Option (PNode N X)) (p : Option Addr) : Option X := p.bind fun c => (nd c).map (·.ext)

/-- the objects after `a.set_left(child)`, if `a` is `n` -/
def afterLeft (C : PClass X) (nd : Addr → Option (PNode N X)) (a : Addr) (n : PNode N X) (child : Option Addr) :
    Addr → Option (PNode N X) := fun x =>
  if x = a then some
    { data := n.data, ext := C.relink (extAt nd child) (extAt nd n.right) n.ext, left := child,
      right := n.right, parent := if child = some a then some a else n.parent }
  else if child = some x then (nd x).map fun m => { m with parent := some a } else nd x

/-- the objects after `a.set_right(child)`, if `a` is `n` -/
def afterRight (C : PClass X) (nd : Addr → Option (PNode N X)) (a : Addr) (n : PNode N X) (child : Option Addr) :
    Addr → Option (PNode N X) := fun x =>
  if x = a then some
    { data := n.data, ext := C.relink (extAt nd n.left) (extAt nd child) n.ext, left := n.left,
      right := child, parent := if child = some a then some a else n.parent }
  else if child = some x then (nd x).map fun m => { m with parent := some a } else nd x

theorem extAt_upd {nd : Addr → Option (PNode N X)} {a : Addr} {n n' : PNode N X} (h : nd a = some n)
    (e : n'.ext = n.ext) (p : Option Addr) : extAt (upd nd a (some n')) p = extAt nd p := by
  cases p with
  | none => rfl
  | some c =>
    by_cases hc : c = a
    · subst hc; simp [extAt, h, e]
    · simp [extAt, upd, hc]

theorem there_upd {nd : Addr → Option (PNode N X)} {a c : Addr} {n' : PNode N X}
    (h : ∃ m, nd c = some m) : ∃ m, upd nd a (some n') c = some m := by
  by_cases hc : c = a
  · subst hc; exact ⟨_, upd_eq _ _ _⟩
  · rw [upd_other _ _ hc]; exact h

theorem pm_extAt {s : PTree N X} {p : Option Addr} (h : ∀ c, p = some c → ∃ m, s.node c = some m) :
    pExt? p s = (.ok (extAt s.node p), s) := by
  cases p with
  | none => rfl
  | some c =>
    obtain ⟨m, hm⟩ := h c rfl
    rw [pExt?, pm_bind_ok (pm_node hm)]
    simp [extAt, hm]

theorem relink_eq (C : PClass X) {s : PTree N X} {a : Addr} {n : PNode N X} (h : s.node a = some n)
    (hl : ∀ c, n.left = some c → ∃ m, s.node c = some m)
    (hr : ∀ c, n.right = some c → ∃ m, s.node c = some m) :
    pRelink C (some a) s = (.ok (), s.put (upd s.node a
      (some { n with ext := C.relink (extAt s.node n.left) (extAt s.node n.right) n.ext }))) := by
  rw [pRelink, pm_bind_ok (pm_node h), pm_bind_ok (pm_extAt hl), pm_bind_ok (pm_extAt hr), pm_setNode _ h]

theorem setLeft_eq (C : PClass X) {s : PTree N X} {a : Addr} {n : PNode N X} (h : s.node a = some n)
    {child : Option Addr} (hc : ∀ c, child = some c → ∃ m, s.node c = some m)
    (hr : ∀ c, n.right = some c → ∃ m, s.node c = some m) :
    pSetLeft C (some a) child s = (.ok (), s.put (afterLeft C s.node a n child)) := by
  rw [pSetLeft, pm_bind_ok (pm_setNode _ h)]
  cases child with
  | none =>
    have e := extAt_upd h (n' := { n with left := none }) rfl
    rw [pAdopt, pm_bind_ok (pm_pure' _ _), relink_eq C (n := { n with left := none }) (by simp) (by simp)
      (fun c hc => there_upd (hr c hc))]
    simp only [put_put, put_node, e]
    congr 2
    funext x
    by_cases hx : x = a
    · subst hx; simp [afterLeft]
    · simp [afterLeft, upd, hx]
  | some c =>
    obtain ⟨m, hm⟩ := hc c rfl
    have e := extAt_upd h (n' := { n with left := some c }) rfl
    by_cases hca : c = a
    · subst hca
      obtain rfl : m = n := Option.some.inj (hm.symm.trans h)
      have e' := extAt_upd (nd := upd s.node c (some { m with left := some c })) (upd_eq _ _ _)
        (n' := { m with left := some c, parent := some c }) rfl
      rw [pAdopt, pm_bind_ok (pm_setParent _ (n := { m with left := some c }) (by simp)),
        relink_eq C (n := { m with left := some c, parent := some c }) (by simp)
        (fun d hd => there_upd (there_upd (hc d hd))) (fun d hd => there_upd (there_upd (hr d hd)))]
      simp only [put_put, put_node, e, e']
      congr 2
      funext x
      by_cases hx : x = c
      · subst hx; simp [afterLeft]
      · have : ¬ c = x := fun e => hx e.symm
        simp [afterLeft, upd, hx, this]
    · have hac : ¬ a = c := fun e => hca e.symm
      have e' := extAt_upd (nd := upd s.node a (some { n with left := some c })) (a := c) (n := m)
        (by rw [upd_other _ _ hca, hm]) (n' := { m with parent := some a }) rfl
      rw [pAdopt, pm_bind_ok (pm_setParent _ (n := m) (by simp [upd, hca, hm])),
        relink_eq C (n := { n with left := some c }) (by simp [upd, hac])
        (fun d hd => there_upd (there_upd (hc d hd))) (fun d hd => there_upd (there_upd (hr d hd)))]
      simp only [put_put, put_node, e, e']
      congr 2
      funext x
      by_cases hx : x = a
      · subst hx
        simp [afterLeft, hca]
      · by_cases hxc : x = c
        · subst hxc
          simp [afterLeft, upd, hx, hm]
        · have : ¬ c = x := fun e => hxc e.symm
          simp [afterLeft, upd, hx, hxc, this]

theorem setRight_eq (C : PClass X) {s : PTree N X} {a : Addr} {n : PNode N X} (h : s.node a = some n)
    {child : Option Addr} (hc : ∀ c, child = some c → ∃ m, s.node c = some m)
    (hr : ∀ c, n.left = some c → ∃ m, s.node c = some m) :
    pSetRight C (some a) child s = (.ok (), s.put (afterRight C s.node a n child)) := by
  rw [pSetRight, pm_bind_ok (pm_setNode _ h)]
  cases child with
  | none =>
    have e := extAt_upd h (n' := { n with right := none }) rfl
    rw [pAdopt, pm_bind_ok (pm_pure' _ _), relink_eq C (n := { n with right := none }) (by simp)
      (fun c hc => there_upd (hr c hc)) (by simp)]
    simp only [put_put, put_node, e]
    congr 2
    funext x
    by_cases hx : x = a
    · subst hx; simp [afterRight]
    · simp [afterRight, upd, hx]
  | some c =>
    obtain ⟨m, hm⟩ := hc c rfl
    have e := extAt_upd h (n' := { n with right := some c }) rfl
    by_cases hca : c = a
    · subst hca
      obtain rfl : m = n := Option.some.inj (hm.symm.trans h)
      have e' := extAt_upd (nd := upd s.node c (some { m with right := some c })) (upd_eq _ _ _)
        (n' := { m with right := some c, parent := some c }) rfl
      rw [pAdopt, pm_bind_ok (pm_setParent _ (n := { m with right := some c }) (by simp)),
        relink_eq C (n := { m with right := some c, parent := some c }) (by simp)
        (fun d hd => there_upd (there_upd (hr d hd))) (fun d hd => there_upd (there_upd (hc d hd)))]
      simp only [put_put, put_node, e, e']
      congr 2
      funext x
      by_cases hx : x = c
      · subst hx; simp [afterRight]
      · have : ¬ c = x := fun e => hx e.symm
        simp [afterRight, upd, hx, this]
    · have hac : ¬ a = c := fun e => hca e.symm
      have e' := extAt_upd (nd := upd s.node a (some { n with right := some c })) (a := c) (n := m)
        (by rw [upd_other _ _ hca, hm]) (n' := { m with parent := some a }) rfl
      rw [pAdopt, pm_bind_ok (pm_setParent _ (n := m) (by simp [upd, hca, hm])),
        relink_eq C (n := { n with right := some c }) (by simp [upd, hac])
        (fun d hd => there_upd (there_upd (hr d hd))) (fun d hd => there_upd (there_upd (hc d hd)))]
      simp only [put_put, put_node, e, e']
      congr 2
      funext x
      by_cases hx : x = a
      · subst hx
        simp [afterRight, hca]
      · by_cases hxc : x = c
        · subst hxc
          simp [afterRight, upd, hx, hm]
        · have : ¬ c = x := fun e => hxc e.symm
          simp [afterRight, upd, hx, hxc, this]

theorem agree_left (C : PClass X) {nd : Addr → Option (PNode N X)} (H : LinksAgree nd) {a : Addr}
    {n : PNode N X} (h : nd a = some n) {child : Option Addr} (hc : ∀ c, child = some c → ∃ m, nd c = some m) :
    LinksAgree (afterLeft C nd a n child) ↔ n.left = child ∨
      (n.left = none ∧ ∀ c m, child = some c → nd c = some m → m.parent = none) := by
  obtain ⟨A1, A2, A3, A4⟩ := H a n h
  constructor
  · intro H'
    by_cases hl : n.left = child
    · exact Or.inl hl
    refine Or.inr ⟨?_, ?_⟩
    · cases hd : n.left with
      | none => rfl
      | some d =>
        exfalso
        obtain ⟨m, hm, hp⟩ := A1 d hd
        have hcd : child ≠ some d := fun e => hl (by rw [hd, e])
        have hr : n.right ≠ some d := A4 d hd
        by_cases hda : d = a
        · subst hda
          obtain rfl : m = n := Option.some.inj (hm.symm.trans h)
          obtain ⟨m', hm', hs⟩ := (H' d _ (if_pos rfl)).2.2.1 d (by simp [hcd, hp])
          rw [afterLeft, if_pos rfl] at hm'
          cases hm'
          rcases hs with hs | hs
          · exact hcd hs
          · exact hr hs
        · have e : afterLeft C nd a n child d = some m := by
            rw [afterLeft, if_neg hda, if_neg hcd, hm]
          obtain ⟨m', hm', hs⟩ := (H' d _ e).2.2.1 a hp
          rw [afterLeft, if_pos rfl] at hm'
          cases hm'
          rcases hs with hs | hs
          · exact hcd hs
          · exact hr hs
    · rintro c m rfl hm
      cases hp : m.parent with
      | none => rfl
      | some p =>
        exfalso
        obtain ⟨k, hk, hs⟩ := (H c m hm).2.2.1 p hp
        by_cases hpa : p = a
        · subst hpa
          obtain rfl : k = n := Option.some.inj (hk.symm.trans h)
          rcases hs with hs | hs
          · exact hl hs
          · exact (H' p _ (if_pos rfl)).2.2.2 c rfl hs
        · have e : ∃ k', afterLeft C nd a n (some c) p = some k' ∧ k'.left = k.left ∧ k'.right = k.right := by
            rw [afterLeft, if_neg hpa]
            split
            · rw [hk]; exact ⟨_, rfl, rfl, rfl⟩
            · exact ⟨k, hk, rfl, rfl⟩
          obtain ⟨k', hk', e1, e2⟩ := e
          obtain ⟨B1, B2, _, _⟩ := H' p k' hk'
          have : ∃ m', afterLeft C nd a n (some c) c = some m' ∧ m'.parent = some p := by
            rcases hs with hs | hs
            · exact B1 c (e1.trans hs)
            · exact B2 c (e2.trans hs)
          obtain ⟨m', hm', hp'⟩ := this
          by_cases hca : c = a
          · subst hca
            rw [afterLeft, if_pos rfl] at hm'
            cases hm'
            simp only [if_true, Option.some.injEq] at hp'
            exact hpa hp'.symm
          · rw [afterLeft, if_neg hca, if_pos rfl, hm] at hm'
            cases hm'
            simp only [Option.some.injEq] at hp'
            exact hpa hp'.symm
  · intro hcond
    -- the parent link of the child, and everything else as before
    have key : ∀ x k, nd x = some k → ∃ k', afterLeft C nd a n child x = some k' ∧
        k'.left = (if x = a then child else k.left) ∧ k'.right = k.right ∧
        k'.parent = if child = some x then some a else k.parent := by
      intro x k hk
      by_cases hx : x = a
      · subst hx
        obtain rfl : k = n := Option.some.inj (hk.symm.trans h)
        exact ⟨_, if_pos rfl, by simp, rfl, rfl⟩
      · rw [afterLeft, if_neg hx]
        by_cases hcx : child = some x
        · rw [if_pos hcx, hk]; exact ⟨_, rfl, by simp [hx], rfl, by simp [hcx]⟩
        · rw [if_neg hcx]; exact ⟨k, hk, by simp [hx], rfl, by simp [hcx]⟩
    have back : ∀ x k', afterLeft C nd a n child x = some k' → ∃ k, nd x = some k ∧
        k'.left = (if x = a then child else k.left) ∧ k'.right = k.right ∧
        k'.parent = if child = some x then some a else k.parent := by
      intro x k' hk'
      have : ∃ k, nd x = some k := by
        by_cases hx : x = a
        · subst hx; exact ⟨n, h⟩
        · rw [afterLeft, if_neg hx] at hk'
          split at hk'
          · rw [Option.map_eq_some_iff] at hk'; obtain ⟨k, hk, _⟩ := hk'; exact ⟨k, hk⟩
          · exact ⟨k', hk'⟩
      obtain ⟨k, hk⟩ := this
      obtain ⟨k'', e, e1⟩ := key x k hk
      rw [hk'] at e
      cases e
      exact ⟨k, hk, e1⟩
    -- a child by another link is not adopted
    have other : ∀ x k c, nd x = some k → child = some c → (k.left = some c ∨ k.right = some c) →
        x = a ∧ k.left = some c ∧ n.left = child := by
      intro x k c hk hcc hs
      obtain ⟨m, hm⟩ := hc c hcc
      obtain ⟨K1, K2, _, K4⟩ := H x k hk
      have hp : m.parent = some x := by
        rcases hs with hs | hs
        · obtain ⟨m', h1, h2⟩ := K1 c hs; rw [hm] at h1; cases h1; exact h2
        · obtain ⟨m', h1, h2⟩ := K2 c hs; rw [hm] at h1; cases h1; exact h2
      rcases hcond with hl | ⟨_, hn⟩
      · have hl' : n.left = some c := hl.trans hcc
        obtain ⟨m', h1, h2⟩ := A1 c hl'
        rw [hm] at h1
        cases h1
        rw [hp] at h2
        cases h2
        obtain rfl : k = n := Option.some.inj (hk.symm.trans h)
        exact ⟨rfl, hl', hl⟩
      · rw [hn c m hcc hm] at hp; cases hp
    intro x k' hk'
    obtain ⟨k, hk, e1, e2, e3⟩ := back x k' hk'
    obtain ⟨K1, K2, K3, K4⟩ := H x k hk
    refine ⟨?_, ?_, ?_, ?_⟩
    · intro c hcl
      rw [e1] at hcl
      by_cases hx : x = a
      · rw [if_pos hx] at hcl
        obtain ⟨m, hm⟩ := hc c hcl
        obtain ⟨m', hm', _, _, e⟩ := key c m hm
        exact ⟨m', hm', by rw [e, if_pos hcl, hx]⟩
      · rw [if_neg hx] at hcl
        obtain ⟨m, hm, hp⟩ := K1 c hcl
        obtain ⟨m', hm', _, _, e⟩ := key c m hm
        refine ⟨m', hm', ?_⟩
        rw [e]
        split
        · rename_i hcc; exact absurd (other x k c hk hcc (Or.inl hcl)).1 hx
        · exact hp
    · intro c hcr
      rw [e2] at hcr
      obtain ⟨m, hm, hp⟩ := K2 c hcr
      obtain ⟨m', hm', _, _, e⟩ := key c m hm
      refine ⟨m', hm', ?_⟩
      rw [e]
      split
      · rename_i hcc; rw [(other x k c hk hcc (Or.inr hcr)).1]
      · exact hp
    · intro p hp
      rw [e3] at hp
      split at hp
      · rename_i hcx
        cases hp
        obtain ⟨n', hn', e, _⟩ := key a n h
        exact ⟨n', hn', Or.inl (by rw [e, if_pos rfl, hcx])⟩
      · rename_i hcx
        obtain ⟨m, hm, hs⟩ := K3 p hp
        obtain ⟨m', hm', f1, f2, _⟩ := key p m hm
        refine ⟨m', hm', ?_⟩
        rw [f1, f2]
        by_cases hpa : p = a
        · rw [if_pos hpa]
          rw [hpa, h] at hm
          cases hm
          rcases hs with hs | hs
          · rcases hcond with hl | ⟨hl, _⟩
            · exact Or.inl (hl ▸ hs)
            · rw [hl] at hs; cases hs
          · exact Or.inr hs
        · rw [if_neg hpa]; exact hs
    · intro c hcl hcr
      rw [e1] at hcl
      rw [e2] at hcr
      by_cases hx : x = a
      · rw [if_pos hx] at hcl
        exact K4 c (other x k c hk hcl (Or.inr hcr)).2.1 hcr
      · rw [if_neg hx] at hcl
        exact K4 c hcl hcr

/-! ## The other side -/

/-- a node with its children exchanged -/
def PNode.mirror (n : PNode N X) : PNode N X := { n with left := n.right, right := n.left }

theorem PNode.mirror_mirror (n : PNode N X) : n.mirror.mirror = n := rfl

/-- all nodes with their children exchanged -/
def mirrorAll (nd : Addr → Option (PNode N X)) : Addr → Option (PNode N X) := fun x => (nd x).map PNode.mirror

theorem mirrorAll_mirrorAll (nd : Addr → Option (PNode N X)) : mirrorAll (mirrorAll nd) = nd := by
  funext x
  cases h : nd x <;> simp [mirrorAll, h, PNode.mirror]

theorem LinksAgree.mirror {nd : Addr → Option (PNode N X)} (H : LinksAgree nd) : LinksAgree (mirrorAll nd) := by
  have there : ∀ {c m}, nd c = some m → mirrorAll nd c = some m.mirror := fun h => by simp [mirrorAll, h]
  intro a n h
  rw [mirrorAll, Option.map_eq_some_iff] at h
  obtain ⟨n, hn, rfl⟩ := h
  obtain ⟨h1, h2, h3, h4⟩ := H a n hn
  refine ⟨fun c hc => ?_, fun c hc => ?_, fun p hp => ?_, fun c hc hc' => h4 c hc' hc⟩
  · obtain ⟨m, hm, e⟩ := h2 c hc; exact ⟨_, there hm, e⟩
  · obtain ⟨m, hm, e⟩ := h1 c hc; exact ⟨_, there hm, e⟩
  · obtain ⟨m, hm, e⟩ := h3 p hp; exact ⟨_, there hm, e.symm⟩

theorem linksAgree_mirror {nd : Addr → Option (PNode N X)} : LinksAgree (mirrorAll nd) ↔ LinksAgree nd :=
  ⟨fun h => by have := h.mirror; rwa [mirrorAll_mirrorAll] at this, LinksAgree.mirror⟩

theorem extAt_mirror (nd : Addr → Option (PNode N X)) (p : Option Addr) :
    extAt (mirrorAll nd) p = extAt nd p := by
  cases p with
  | none => rfl
  | some c => cases h : nd c <;> simp [extAt, mirrorAll, h, PNode.mirror]

theorem afterRight_mirror (C : PClass X) (nd : Addr → Option (PNode N X)) (a : Addr) (n : PNode N X)
    (child : Option Addr) : afterRight C nd a n child =
      mirrorAll (afterLeft { C with relink := fun l r x => C.relink r l x } (mirrorAll nd) a n.mirror child) := by
  funext x
  rw [mirrorAll, afterRight, afterLeft]
  simp only [extAt_mirror]
  split
  · rfl
  · split
    · cases h : nd x <;> simp [mirrorAll, h, PNode.mirror]
    · cases h : nd x <;> simp [mirrorAll, h, PNode.mirror]

theorem agree_right (C : PClass X) {nd : Addr → Option (PNode N X)} (H : LinksAgree nd) {a : Addr}
    {n : PNode N X} (h : nd a = some n) {child : Option Addr} (hc : ∀ c, child = some c → ∃ m, nd c = some m) :
    LinksAgree (afterRight C nd a n child) ↔ n.right = child ∨
      (n.right = none ∧ ∀ c m, child = some c → nd c = some m → m.parent = none) := by
  rw [afterRight_mirror, linksAgree_mirror, agree_left _ H.mirror (n := n.mirror) (by simp [mirrorAll, h])]
  · simp only [mirrorAll, Option.map_eq_some_iff]
    constructor
    · rintro (k | ⟨k1, k2⟩)
      · exact Or.inl k
      · exact Or.inr ⟨k1, fun c m e hm => k2 c m.mirror e ⟨m, hm, rfl⟩⟩
    · rintro (k | ⟨k1, k2⟩)
      · exact Or.inl k
      · refine Or.inr ⟨k1, ?_⟩
        rintro c _ e ⟨m, hm, rfl⟩
        exact k2 c m e hm
  · intro c e
    obtain ⟨m, hm⟩ := hc c e
    exact ⟨m.mirror, by simp [mirrorAll, hm]⟩

theorem collectNodes_nodes (cs acc : List Addr) :
    collectNodes (cs.map .node) acc = .ok (acc ++ cs) := by
  induction cs generalizing acc with
  | nil => simp [collectNodes]
  | cons c cs ih => rw [List.map_cons, collectNodes, ih]; simp

theorem collectNodes_other {l : List NodeArg} {x : NodeArg} (hx : x ∈ l) (h : ∀ a, x ≠ .node a)
    (acc : List Addr) : collectNodes l acc = .error .typeError := by
  induction l generalizing acc with
  | nil => cases hx
  | cons y l ih =>
    cases y with
    | node c =>
      rw [collectNodes]
      rcases List.mem_cons.1 hx with rfl | hx
      · exact absurd rfl (h c)
      · exact ih hx _
    | none => rfl
    | other => rfl

end Extra
