import Verif.Trees.PtrBst
import Verif.Trees.PtrSplay

/-!
# `SplayTree` on node objects: each call does what the value model says (no property content)
-/

set_option linter.unusedSimpArgs false
set_option linter.unusedSectionVars false

namespace Extra
variable {N X : Type} [LinearOrder N]

/-! ## Links of a class that adds nothing -/

section
variable {s : PTree N X}

/-- a link that is `None` or leads to a node -/
def Known (nd : Addr → Option (PNode N X)) (p : Option Addr) : Prop := ∀ a, p = some a → ∃ n, nd a = some n

theorem PRep.known {nd : Addr → Option (PNode N X)} {p : Option Addr} {t : ATree N X} (h : PRep nd p t) :
    Known nd t.ptr := by
  intro a ha
  cases t with
  | nil => simp [BTree.ptr] at ha
  | node l w r =>
    simp only [BTree.ptr, Option.some.injEq] at ha
    subst ha; exact ⟨_, h.1⟩

theorem PRep.exists_of_mem {nd : Addr → Option (PNode N X)} {p : Option Addr} {t : ATree N X} (h : PRep nd p t)
    {a : Addr} (ha : a ∈ t.addrs) : ∃ n, nd a = some n := by
  induction t generalizing p with
  | nil => simp [BTree.addrs] at ha
  | node l w r ihl ihr =>
    simp only [BTree.addrs, List.mem_cons, List.mem_append] at ha
    rcases ha with rfl | ha | ha
    · exact ⟨_, h.1⟩
    · exact ihl h.2.1 ha
    · exact ihr h.2.2 ha

theorem pm_ext' {p : Option Addr} (h : Known s.node p) : ∃ x, pExt? p s = (.ok x, s) := by
  cases p with
  | none => exact ⟨none, rfl⟩
  | some a =>
    obtain ⟨n, hn⟩ := h a rfl
    exact ⟨some n.ext, (pm_bind_ok (pm_node hn)).trans rfl⟩

theorem pm_relink' {a : Addr} {n : PNode N X} (h : s.node a = some n) (hl : Known s.node n.left)
    (hr : Known s.node n.right) : pRelink (plainClass X) (some a) s = (.ok (), s.put s.node) := by
  obtain ⟨x, ex⟩ := pm_ext' hl
  obtain ⟨y, ey⟩ := pm_ext' hr
  refine (pm_bind_ok (pm_node h)).trans <| (pm_bind_ok ex).trans <| (pm_bind_ok ey).trans <| (pm_setNode _ h).trans ?_
  have : upd s.node a (some { n with ext := (plainClass X).relink x y n.ext }) = s.node := by
    funext b
    by_cases hb : b = a
    · subst hb; rw [upd_eq, h]; rfl
    · rw [upd_other _ _ hb]
  rw [this]

theorem pm_setLeft' {a : Addr} {n : PNode N X} {t : ATree N X} {p : Option Addr} (h : s.node a = some n)
    (Ht : PRep s.node p t) (hr : Known s.node n.right) (hnd : t.addrs.Nodup) (hat : a ∉ t.addrs) :
    ∃ nd', pSetLeft (plainClass X) (some a) t.ptr s = (.ok (), s.put nd') ∧
      nd' a = some { n with left := t.ptr } ∧
      PRep nd' (some a) t ∧ (∀ b, b ≠ a → b ∉ t.addrs → nd' b = s.node b) ∧
      ∀ p, Known s.node p → Known nd' p := by
  obtain ⟨nd', e', R', F'⟩ := pm_setParent_tree
    (s := s.put (upd s.node a (some { n with left := t.ptr }))) (some a)
    (Ht.frame fun b hb => upd_other _ _ (by rintro rfl; exact hat hb)) hnd
  have ha' : nd' a = some { n with left := t.ptr } := by rw [F' a hat]; simp
  have K : ∀ p, Known s.node p → Known nd' p := by
    intro p hp b hb
    obtain ⟨m, hm⟩ := hp b hb
    by_cases hba : b = a
    · exact ⟨_, hba ▸ ha'⟩
    by_cases hbt : b ∈ t.addrs
    · exact R'.exists_of_mem hbt
    · exact ⟨m, by rw [F' b hbt, put_node, upd_other _ _ hba, hm]⟩
  refine ⟨nd', ?_, ha', R', fun b h1 h2 => by rw [F' b h2, put_node, upd_other _ _ h1], K⟩
  refine (pm_bind_ok (pm_setNode _ h)).trans <| (pm_bind_ok e').trans ?_
  exact pm_relink' (s := s.put nd') ha' R'.known (K _ hr)

theorem pm_setRight' {a : Addr} {n : PNode N X} {t : ATree N X} {p : Option Addr} (h : s.node a = some n)
    (Ht : PRep s.node p t) (hl : Known s.node n.left) (hnd : t.addrs.Nodup) (hat : a ∉ t.addrs) :
    ∃ nd', pSetRight (plainClass X) (some a) t.ptr s = (.ok (), s.put nd') ∧
      nd' a = some { n with right := t.ptr } ∧
      PRep nd' (some a) t ∧ (∀ b, b ≠ a → b ∉ t.addrs → nd' b = s.node b) ∧
      ∀ p, Known s.node p → Known nd' p := by
  obtain ⟨nd', e', R', F'⟩ := pm_setParent_tree
    (s := s.put (upd s.node a (some { n with right := t.ptr }))) (some a)
    (Ht.frame fun b hb => upd_other _ _ (by rintro rfl; exact hat hb)) hnd
  have ha' : nd' a = some { n with right := t.ptr } := by rw [F' a hat]; simp
  have K : ∀ p, Known s.node p → Known nd' p := by
    intro p hp b hb
    obtain ⟨m, hm⟩ := hp b hb
    by_cases hba : b = a
    · exact ⟨_, hba ▸ ha'⟩
    by_cases hbt : b ∈ t.addrs
    · exact R'.exists_of_mem hbt
    · exact ⟨m, by rw [F' b hbt, put_node, upd_other _ _ hba, hm]⟩
  refine ⟨nd', ?_, ha', R', fun b h1 h2 => by rw [F' b h2, put_node, upd_other _ _ h1], K⟩
  refine (pm_bind_ok (pm_setNode _ h)).trans <| (pm_bind_ok e').trans ?_
  exact pm_relink' (s := s.put nd') ha' (K _ hl) R'.known

theorem pm_grandParent {a b : Addr} {n m : PNode N X} (h : s.node a = some n) (hp : n.parent = some b)
    (hb : s.node b = some m) : pGrandParent (some a) s = (.ok m.parent, s) := by
  refine (pm_bind_ok (pm_parent h)).trans ?_
  rw [hp]; exact pm_parent hb

end

/-! ## The six steps -/

section
variable {s : PTree N X} {a b c d : ATree N X} {x f g : N × (X × Addr)} {fs : List (AFrame N X)} {hole : Option Addr}

/-- `__zig_zig` -/
theorem pm_zigZig (Z : ZRep s (.node a x b) (⟨true, f, c⟩ :: ⟨true, g, d⟩ :: fs) hole) (hh : Known s.node hole) :
    ∃ nd', pZigZig (plainClass X) (some x.2.2) s = (.ok (some x.2.2), s.put nd') ∧
      ZRep (s.put nd') (.node a x (.node b f (.node c g d))) fs (some g.2.2) := by
  obtain ⟨⟨Hf, Hc, Hg, Hd, Hfs⟩, ⟨Hx, Ha, Hb⟩, hn, hbd⟩ := Z
  simp only [BTree.addrs, ctxAddrs, List.nodup_cons, List.nodup_append, List.mem_append, List.mem_cons, not_or,
    ne_eq, List.cons_append] at hn
  simp only [BTree.addrs, ctxAddrs, List.mem_append, List.mem_cons, List.cons_append] at hbd
  simp only [if_true, Bool.false_eq_true, if_false] at Hf Hg
  have F1 : ∀ q, q ≠ x.2.2 → upd s.node x.2.2 (some ⟨x.1, x.2.1, a.ptr, b.ptr, ctxPtr fs⟩) q = s.node q :=
    fun q hq => upd_other _ _ hq
  have K1 : ∀ p, Known s.node p → Known (upd s.node x.2.2 (some ⟨x.1, x.2.1, a.ptr, b.ptr, ctxPtr fs⟩)) p := by
    intro p hp q hq
    by_cases hqx : q = x.2.2
    · exact ⟨_, by rw [hqx, upd_eq]⟩
    · rw [F1 q hqx]; exact hp q hq
  have Hg1 := (F1 g.2.2 (by grind)).trans Hg
  have Hf1 := (F1 f.2.2 (by grind)).trans Hf
  obtain ⟨nd2, e2, hg2, R2, F2, K2⟩ := pm_setLeft' (s := s.put (upd s.node x.2.2 (some ⟨x.1, x.2.1, a.ptr, b.ptr, ctxPtr fs⟩)))
    Hg1 (Hc.frame fun q hq => F1 q (by grind)) (K1 _ Hd.known) (by grind) (by grind)
  rw [put_node] at F2
  have hf2 := (F2 f.2.2 (by grind) (by grind)).trans Hf1
  have hd2 : PRep nd2 (some g.2.2) d := Hd.frame fun q hq => by rw [F2 q (by grind) (by grind), F1 q (by grind)]
  obtain ⟨nd3, e3, hf3, R3, F3, K3⟩ := pm_setRight' (s := s.put nd2) (t := .node c g d) (p := ctxPtr fs)
    hf2 ⟨hg2, R2, hd2⟩ (K2 _ (K1 _ hh))
    (by simp only [BTree.addrs, List.nodup_cons, List.nodup_append, List.mem_append, List.mem_cons]; grind)
    (by simp only [BTree.addrs, List.mem_append, List.mem_cons]; grind)
  simp only [put_node, BTree.addrs, List.mem_append, List.mem_cons] at F3
  have hx3 := (F3 x.2.2 (by grind) (by grind)).trans ((F2 x.2.2 (by grind) (by grind)).trans (upd_eq _ _ _))
  have hb3 : PRep nd3 (some x.2.2) b := Hb.frame fun q hq => by
    rw [F3 q (by grind) (by grind), F2 q (by grind) (by grind), F1 q (by grind)]
  obtain ⟨nd4, e4, hf4, R4, F4, K4⟩ := pm_setLeft' (s := s.put nd3) hf3 hb3 R3.known (by grind) (by grind)
  rw [put_node] at F4
  have hx4 := (F4 x.2.2 (by grind) (by grind)).trans hx3
  have hr4 : PRep nd4 (some f.2.2) (.node c g d) := R3.frame fun q hq => by
    simp only [BTree.addrs, List.mem_append, List.mem_cons] at hq
    rw [F4 q (by grind) (by grind)]
  obtain ⟨nd5, e5, hx5, R5, F5, K5⟩ := pm_setRight' (s := s.put nd4) (t := .node b f (.node c g d)) (p := some g.2.2)
    hx4 ⟨hf4, R4, hr4⟩ (K4 _ (K3 _ (K2 _ (K1 _ Ha.known))))
    (by simp only [BTree.addrs, List.nodup_cons, List.nodup_append, List.mem_append, List.mem_cons]; grind)
    (by simp only [BTree.addrs, List.mem_append, List.mem_cons]; grind)
  simp only [put_node, BTree.addrs, List.mem_append, List.mem_cons, List.cons_append] at F5
  have FF : ∀ q, q ≠ x.2.2 → q ≠ f.2.2 → q ≠ g.2.2 → q ∉ b.addrs → q ∉ c.addrs → q ∉ d.addrs → nd5 q = s.node q := by
    intro q h1 h2 h3 h4 h5 h6
    rw [F5 q (by grind) (by grind), F4 q (by grind) (by grind), F3 q (by grind) (by grind), F2 q (by grind) (by grind),
      F1 q (by grind)]
  refine ⟨nd5, ?_, ⟨Hfs.frame fun q hq => ?_, ⟨hx5, Ha.frame fun q hq => ?_, R5⟩, ?_, ?_⟩⟩
  · exact (pm_bind_ok (pm_assert _ _)).trans <| (pm_bind_ok (pm_parent Hx)).trans <|
      (pm_bind_ok (pm_grandParent Hx rfl Hf)).trans <| (pm_bind_ok (pm_parent Hg)).trans <|
      (pm_bind_ok (pm_setParent _ Hx)).trans <|
      (pm_bind_ok (pm_right (s := s.put (upd s.node x.2.2 (some ⟨x.1, x.2.1, a.ptr, b.ptr, ctxPtr fs⟩))) Hf1)).trans <|
      (pm_bind_ok e2).trans <| (pm_bind_ok e3).trans <| (pm_bind_ok (pm_right hx3)).trans <|
      (pm_bind_ok e4).trans <| (pm_bind_ok e5).trans rfl
  · rw [put_node, FF q] <;> grind
  · rw [put_node, FF q] <;> grind
  · simp only [BTree.addrs, List.nodup_cons, List.nodup_append, List.mem_append, List.mem_cons, List.cons_append]; grind
  · intro q hq
    simp only [BTree.addrs, List.mem_append, List.mem_cons, List.cons_append] at hq
    exact hbd q (by grind)

/-- `__zag_zag` -/
theorem pm_zagZag (Z : ZRep s (.node a x b) (⟨false, f, c⟩ :: ⟨false, g, d⟩ :: fs) hole) (hh : Known s.node hole) :
    ∃ nd', pZagZag (plainClass X) (some x.2.2) s = (.ok (some x.2.2), s.put nd') ∧
      ZRep (s.put nd') (.node (.node (.node d g c) f a) x b) fs (some g.2.2) := by
  obtain ⟨⟨Hf, Hc, Hg, Hd, Hfs⟩, ⟨Hx, Ha, Hb⟩, hn, hbd⟩ := Z
  simp only [BTree.addrs, ctxAddrs, List.nodup_cons, List.nodup_append, List.mem_append, List.mem_cons, not_or,
    ne_eq, List.cons_append] at hn
  simp only [BTree.addrs, ctxAddrs, List.mem_append, List.mem_cons, List.cons_append] at hbd
  simp only [if_true, Bool.false_eq_true, if_false] at Hf Hg
  have F1 : ∀ q, q ≠ x.2.2 → upd s.node x.2.2 (some ⟨x.1, x.2.1, a.ptr, b.ptr, ctxPtr fs⟩) q = s.node q :=
    fun q hq => upd_other _ _ hq
  have K1 : ∀ p, Known s.node p → Known (upd s.node x.2.2 (some ⟨x.1, x.2.1, a.ptr, b.ptr, ctxPtr fs⟩)) p := by
    intro p hp q hq
    by_cases hqx : q = x.2.2
    · exact ⟨_, by rw [hqx, upd_eq]⟩
    · rw [F1 q hqx]; exact hp q hq
  have Hg1 := (F1 g.2.2 (by grind)).trans Hg
  have Hf1 := (F1 f.2.2 (by grind)).trans Hf
  obtain ⟨nd2, e2, hg2, R2, F2, K2⟩ := pm_setRight' (s := s.put (upd s.node x.2.2 (some ⟨x.1, x.2.1, a.ptr, b.ptr, ctxPtr fs⟩)))
    Hg1 (Hc.frame fun q hq => F1 q (by grind)) (K1 _ Hd.known) (by grind) (by grind)
  rw [put_node] at F2
  have hf2 := (F2 f.2.2 (by grind) (by grind)).trans Hf1
  have hd2 : PRep nd2 (some g.2.2) d := Hd.frame fun q hq => by rw [F2 q (by grind) (by grind), F1 q (by grind)]
  obtain ⟨nd3, e3, hf3, R3, F3, K3⟩ := pm_setLeft' (s := s.put nd2) (t := .node d g c) (p := ctxPtr fs)
    hf2 ⟨hg2, hd2, R2⟩ (K2 _ (K1 _ hh))
    (by simp only [BTree.addrs, List.nodup_cons, List.nodup_append, List.mem_append, List.mem_cons]; grind)
    (by simp only [BTree.addrs, List.mem_append, List.mem_cons]; grind)
  simp only [put_node, BTree.addrs, List.mem_append, List.mem_cons] at F3
  have hx3 := (F3 x.2.2 (by grind) (by grind)).trans ((F2 x.2.2 (by grind) (by grind)).trans (upd_eq _ _ _))
  have hb3 : PRep nd3 (some x.2.2) a := Ha.frame fun q hq => by
    rw [F3 q (by grind) (by grind), F2 q (by grind) (by grind), F1 q (by grind)]
  obtain ⟨nd4, e4, hf4, R4, F4, K4⟩ := pm_setRight' (s := s.put nd3) hf3 hb3 R3.known (by grind) (by grind)
  rw [put_node] at F4
  have hx4 := (F4 x.2.2 (by grind) (by grind)).trans hx3
  have hr4 : PRep nd4 (some f.2.2) (.node d g c) := R3.frame fun q hq => by
    simp only [BTree.addrs, List.mem_append, List.mem_cons] at hq
    rw [F4 q (by grind) (by grind)]
  obtain ⟨nd5, e5, hx5, R5, F5, K5⟩ := pm_setLeft' (s := s.put nd4) (t := .node (.node d g c) f a) (p := some g.2.2)
    hx4 ⟨hf4, hr4, R4⟩ (K4 _ (K3 _ (K2 _ (K1 _ Hb.known))))
    (by simp only [BTree.addrs, List.nodup_cons, List.nodup_append, List.mem_append, List.mem_cons]; grind)
    (by simp only [BTree.addrs, List.mem_append, List.mem_cons]; grind)
  simp only [put_node, BTree.addrs, List.mem_append, List.mem_cons, List.cons_append] at F5
  have FF : ∀ q, q ≠ x.2.2 → q ≠ f.2.2 → q ≠ g.2.2 → q ∉ a.addrs → q ∉ c.addrs → q ∉ d.addrs → nd5 q = s.node q := by
    intro q h1 h2 h3 h4 h5 h6
    rw [F5 q (by grind) (by grind), F4 q (by grind) (by grind), F3 q (by grind) (by grind), F2 q (by grind) (by grind),
      F1 q (by grind)]
  refine ⟨nd5, ?_, ⟨Hfs.frame fun q hq => ?_, ⟨hx5, R5, Hb.frame fun q hq => ?_⟩, ?_, ?_⟩⟩
  · exact (pm_bind_ok (pm_assert _ _)).trans <| (pm_bind_ok (pm_parent Hx)).trans <|
      (pm_bind_ok (pm_grandParent Hx rfl Hf)).trans <| (pm_bind_ok (pm_parent Hg)).trans <|
      (pm_bind_ok (pm_setParent _ Hx)).trans <|
      (pm_bind_ok (pm_left (s := s.put (upd s.node x.2.2 (some ⟨x.1, x.2.1, a.ptr, b.ptr, ctxPtr fs⟩))) Hf1)).trans <|
      (pm_bind_ok e2).trans <| (pm_bind_ok e3).trans <| (pm_bind_ok (pm_left hx3)).trans <|
      (pm_bind_ok e4).trans <| (pm_bind_ok e5).trans rfl
  · rw [put_node, FF q] <;> grind
  · rw [put_node, FF q] <;> grind
  · simp only [BTree.addrs, List.nodup_cons, List.nodup_append, List.mem_append, List.mem_cons, List.cons_append]; grind
  · intro q hq
    simp only [BTree.addrs, List.mem_append, List.mem_cons, List.cons_append] at hq
    exact hbd q (by grind)

/-- `__zig_zag` -/
theorem pm_zigZag (Z : ZRep s (.node a x b) (⟨false, f, c⟩ :: ⟨true, g, d⟩ :: fs) hole) :
    ∃ nd', pZigZag (plainClass X) (some x.2.2) s = (.ok (some x.2.2), s.put nd') ∧
      ZRep (s.put nd') (.node (.node c f a) x (.node b g d)) fs (some g.2.2) := by
  obtain ⟨⟨Hf, Hc, Hg, Hd, Hfs⟩, ⟨Hx, Ha, Hb⟩, hn, hbd⟩ := Z
  simp only [BTree.addrs, ctxAddrs, List.nodup_cons, List.nodup_append, List.mem_append, List.mem_cons, not_or,
    ne_eq, List.cons_append] at hn
  simp only [BTree.addrs, ctxAddrs, List.mem_append, List.mem_cons, List.cons_append] at hbd
  simp only [if_true, Bool.false_eq_true, if_false] at Hf Hg
  have F1 : ∀ q, q ≠ x.2.2 → upd s.node x.2.2 (some ⟨x.1, x.2.1, a.ptr, b.ptr, ctxPtr fs⟩) q = s.node q :=
    fun q hq => upd_other _ _ hq
  have K1 : ∀ p, Known s.node p → Known (upd s.node x.2.2 (some ⟨x.1, x.2.1, a.ptr, b.ptr, ctxPtr fs⟩)) p := by
    intro p hp q hq
    by_cases hqx : q = x.2.2
    · exact ⟨_, by rw [hqx, upd_eq]⟩
    · rw [F1 q hqx]; exact hp q hq
  have Hg1 := (F1 g.2.2 (by grind)).trans Hg
  have Hf1 := (F1 f.2.2 (by grind)).trans Hf
  obtain ⟨nd2, e2, hg2, R2, F2, K2⟩ := pm_setLeft' (s := s.put (upd s.node x.2.2 (some ⟨x.1, x.2.1, a.ptr, b.ptr, ctxPtr fs⟩)))
    Hg1 (Hb.frame fun q hq => F1 q (by grind)) (K1 _ Hd.known) (by grind) (by grind)
  rw [put_node] at F2
  have hf2 := (F2 f.2.2 (by grind) (by grind)).trans Hf1
  have hx2 := (F2 x.2.2 (by grind) (by grind)).trans (upd_eq _ _ _)
  have ha2 : PRep nd2 (some x.2.2) a := Ha.frame fun q hq => by
    rw [F2 q (by grind) (by grind), F1 q (by grind)]
  obtain ⟨nd3, e3, hf3, R3, F3, K3⟩ := pm_setRight' (s := s.put nd2) hf2 ha2 (K2 _ (K1 _ Hc.known)) (by grind) (by grind)
  rw [put_node] at F3
  have hg3 := (F3 g.2.2 (by grind) (by grind)).trans hg2
  have hx3 := (F3 x.2.2 (by grind) (by grind)).trans hx2
  have hb3 : PRep nd3 (some g.2.2) b := R2.frame fun q hq => F3 q (by grind) (by grind)
  have hd3 : PRep nd3 (some g.2.2) d := Hd.frame fun q hq => by
    rw [F3 q (by grind) (by grind), F2 q (by grind) (by grind), F1 q (by grind)]
  obtain ⟨nd4, e4, hx4, R4, F4, K4⟩ := pm_setRight' (s := s.put nd3) (t := .node b g d) (p := ctxPtr fs)
    hx3 ⟨hg3, hb3, hd3⟩ (K3 _ (K2 _ (K1 _ Ha.known)))
    (by simp only [BTree.addrs, List.nodup_cons, List.nodup_append, List.mem_append, List.mem_cons]; grind)
    (by simp only [BTree.addrs, List.mem_append, List.mem_cons]; grind)
  simp only [put_node, BTree.addrs, List.mem_append, List.mem_cons] at F4
  have hf4 := (F4 f.2.2 (by grind) (by grind)).trans hf3
  have ha4 : PRep nd4 (some f.2.2) a := R3.frame fun q hq => F4 q (by grind) (by grind)
  have hc4 : PRep nd4 (some f.2.2) c := Hc.frame fun q hq => by
    rw [F4 q (by grind) (by grind), F3 q (by grind) (by grind), F2 q (by grind) (by grind), F1 q (by grind)]
  obtain ⟨nd5, e5, hx5, R5, F5, K5⟩ := pm_setLeft' (s := s.put nd4) (t := .node c f a) (p := some g.2.2)
    hx4 ⟨hf4, hc4, ha4⟩ R4.known
    (by simp only [BTree.addrs, List.nodup_cons, List.nodup_append, List.mem_append, List.mem_cons]; grind)
    (by simp only [BTree.addrs, List.mem_append, List.mem_cons]; grind)
  simp only [put_node, BTree.addrs, List.mem_append, List.mem_cons] at F5
  have FF : ∀ q, q ≠ x.2.2 → q ≠ f.2.2 → q ≠ g.2.2 → q ∉ a.addrs → q ∉ b.addrs → q ∉ c.addrs → q ∉ d.addrs →
      nd5 q = s.node q := by
    intro q h1 h2 h3 h4 h5 h6 h7
    rw [F5 q (by grind) (by grind), F4 q (by grind) (by grind), F3 q (by grind) (by grind), F2 q (by grind) (by grind),
      F1 q (by grind)]
  have R4' : PRep nd5 (some x.2.2) (.node b g d) := R4.frame fun q hq => by
    simp only [BTree.addrs, List.mem_append, List.mem_cons] at hq
    rw [F5 q (by grind) (by grind)]
  refine ⟨nd5, ?_, ⟨Hfs.frame fun q hq => ?_, ⟨hx5, R5, R4'⟩, ?_, ?_⟩⟩
  · exact (pm_bind_ok (pm_assert _ _)).trans <| (pm_bind_ok (pm_parent Hx)).trans <|
      (pm_bind_ok (pm_grandParent Hx rfl Hf)).trans <| (pm_bind_ok (pm_parent Hg)).trans <|
      (pm_bind_ok (pm_setParent _ Hx)).trans <|
      (pm_bind_ok (pm_right (s := s.put (upd s.node x.2.2 (some ⟨x.1, x.2.1, a.ptr, b.ptr, ctxPtr fs⟩))) (upd_eq _ _ _))).trans <|
      (pm_bind_ok e2).trans <| (pm_bind_ok (pm_left hx2)).trans <| (pm_bind_ok e3).trans <|
      (pm_bind_ok e4).trans <| (pm_bind_ok e5).trans rfl
  · rw [put_node, FF q] <;> grind
  · simp only [BTree.addrs, List.nodup_cons, List.nodup_append, List.mem_append, List.mem_cons, List.cons_append]; grind
  · intro q hq
    simp only [BTree.addrs, List.mem_append, List.mem_cons, List.cons_append] at hq
    exact hbd q (by grind)

/-- `__zag_zig` -/
theorem pm_zagZig (Z : ZRep s (.node a x b) (⟨true, f, c⟩ :: ⟨false, g, d⟩ :: fs) hole) :
    ∃ nd', pZagZig (plainClass X) (some x.2.2) s = (.ok (some x.2.2), s.put nd') ∧
      ZRep (s.put nd') (.node (.node d g a) x (.node b f c)) fs (some g.2.2) := by
  obtain ⟨⟨Hf, Hc, Hg, Hd, Hfs⟩, ⟨Hx, Ha, Hb⟩, hn, hbd⟩ := Z
  simp only [BTree.addrs, ctxAddrs, List.nodup_cons, List.nodup_append, List.mem_append, List.mem_cons, not_or,
    ne_eq, List.cons_append] at hn
  simp only [BTree.addrs, ctxAddrs, List.mem_append, List.mem_cons, List.cons_append] at hbd
  simp only [if_true, Bool.false_eq_true, if_false] at Hf Hg
  have F1 : ∀ q, q ≠ x.2.2 → upd s.node x.2.2 (some ⟨x.1, x.2.1, a.ptr, b.ptr, ctxPtr fs⟩) q = s.node q :=
    fun q hq => upd_other _ _ hq
  have K1 : ∀ p, Known s.node p → Known (upd s.node x.2.2 (some ⟨x.1, x.2.1, a.ptr, b.ptr, ctxPtr fs⟩)) p := by
    intro p hp q hq
    by_cases hqx : q = x.2.2
    · exact ⟨_, by rw [hqx, upd_eq]⟩
    · rw [F1 q hqx]; exact hp q hq
  have Hg1 := (F1 g.2.2 (by grind)).trans Hg
  have Hf1 := (F1 f.2.2 (by grind)).trans Hf
  obtain ⟨nd2, e2, hg2, R2, F2, K2⟩ := pm_setRight' (s := s.put (upd s.node x.2.2 (some ⟨x.1, x.2.1, a.ptr, b.ptr, ctxPtr fs⟩)))
    Hg1 (Ha.frame fun q hq => F1 q (by grind)) (K1 _ Hd.known) (by grind) (by grind)
  rw [put_node] at F2
  have hf2 := (F2 f.2.2 (by grind) (by grind)).trans Hf1
  have hx2 := (F2 x.2.2 (by grind) (by grind)).trans (upd_eq _ _ _)
  have ha2 : PRep nd2 (some x.2.2) b := Hb.frame fun q hq => by
    rw [F2 q (by grind) (by grind), F1 q (by grind)]
  obtain ⟨nd3, e3, hf3, R3, F3, K3⟩ := pm_setLeft' (s := s.put nd2) hf2 ha2 (K2 _ (K1 _ Hc.known)) (by grind) (by grind)
  rw [put_node] at F3
  have hg3 := (F3 g.2.2 (by grind) (by grind)).trans hg2
  have hx3 := (F3 x.2.2 (by grind) (by grind)).trans hx2
  have hb3 : PRep nd3 (some g.2.2) a := R2.frame fun q hq => F3 q (by grind) (by grind)
  have hd3 : PRep nd3 (some g.2.2) d := Hd.frame fun q hq => by
    rw [F3 q (by grind) (by grind), F2 q (by grind) (by grind), F1 q (by grind)]
  obtain ⟨nd4, e4, hx4, R4, F4, K4⟩ := pm_setLeft' (s := s.put nd3) (t := .node d g a) (p := ctxPtr fs)
    hx3 ⟨hg3, hd3, hb3⟩ (K3 _ (K2 _ (K1 _ Hb.known)))
    (by simp only [BTree.addrs, List.nodup_cons, List.nodup_append, List.mem_append, List.mem_cons]; grind)
    (by simp only [BTree.addrs, List.mem_append, List.mem_cons]; grind)
  simp only [put_node, BTree.addrs, List.mem_append, List.mem_cons] at F4
  have hf4 := (F4 f.2.2 (by grind) (by grind)).trans hf3
  have ha4 : PRep nd4 (some f.2.2) b := R3.frame fun q hq => F4 q (by grind) (by grind)
  have hc4 : PRep nd4 (some f.2.2) c := Hc.frame fun q hq => by
    rw [F4 q (by grind) (by grind), F3 q (by grind) (by grind), F2 q (by grind) (by grind), F1 q (by grind)]
  obtain ⟨nd5, e5, hx5, R5, F5, K5⟩ := pm_setRight' (s := s.put nd4) (t := .node b f c) (p := some g.2.2)
    hx4 ⟨hf4, ha4, hc4⟩ R4.known
    (by simp only [BTree.addrs, List.nodup_cons, List.nodup_append, List.mem_append, List.mem_cons]; grind)
    (by simp only [BTree.addrs, List.mem_append, List.mem_cons]; grind)
  simp only [put_node, BTree.addrs, List.mem_append, List.mem_cons] at F5
  have FF : ∀ q, q ≠ x.2.2 → q ≠ f.2.2 → q ≠ g.2.2 → q ∉ a.addrs → q ∉ b.addrs → q ∉ c.addrs → q ∉ d.addrs →
      nd5 q = s.node q := by
    intro q h1 h2 h3 h4 h5 h6 h7
    rw [F5 q (by grind) (by grind), F4 q (by grind) (by grind), F3 q (by grind) (by grind), F2 q (by grind) (by grind),
      F1 q (by grind)]
  have R4' : PRep nd5 (some x.2.2) (.node d g a) := R4.frame fun q hq => by
    simp only [BTree.addrs, List.mem_append, List.mem_cons] at hq
    rw [F5 q (by grind) (by grind)]
  refine ⟨nd5, ?_, ⟨Hfs.frame fun q hq => ?_, ⟨hx5, R4', R5⟩, ?_, ?_⟩⟩
  · exact (pm_bind_ok (pm_assert _ _)).trans <| (pm_bind_ok (pm_parent Hx)).trans <|
      (pm_bind_ok (pm_grandParent Hx rfl Hf)).trans <| (pm_bind_ok (pm_parent Hg)).trans <|
      (pm_bind_ok (pm_setParent _ Hx)).trans <|
      (pm_bind_ok (pm_left (s := s.put (upd s.node x.2.2 (some ⟨x.1, x.2.1, a.ptr, b.ptr, ctxPtr fs⟩))) (upd_eq _ _ _))).trans <|
      (pm_bind_ok e2).trans <| (pm_bind_ok (pm_right hx2)).trans <| (pm_bind_ok e3).trans <|
      (pm_bind_ok e4).trans <| (pm_bind_ok e5).trans rfl
  · rw [put_node, FF q] <;> grind
  · simp only [BTree.addrs, List.nodup_cons, List.nodup_append, List.mem_append, List.mem_cons, List.cons_append]; grind
  · intro q hq
    simp only [BTree.addrs, List.mem_append, List.mem_cons, List.cons_append] at hq
    exact hbd q (by grind)

/-- `__zig` -/
theorem pm_zig (Z : ZRep s (.node a x b) (⟨true, f, c⟩ :: fs) hole) :
    ∃ nd', pZig (plainClass X) (some x.2.2) s = (.ok (some x.2.2), s.put nd') ∧
      ZRep (s.put nd') (.node a x (.node b f c)) fs (some f.2.2) := by
  obtain ⟨⟨Hf, Hc, Hfs⟩, ⟨Hx, Ha, Hb⟩, hn, hbd⟩ := Z
  simp only [BTree.addrs, ctxAddrs, List.nodup_cons, List.nodup_append, List.mem_append, List.mem_cons, not_or,
    ne_eq, List.cons_append] at hn
  simp only [BTree.addrs, ctxAddrs, List.mem_append, List.mem_cons, List.cons_append] at hbd
  simp only [if_true, Bool.false_eq_true, if_false] at Hf
  have F1 : ∀ q, q ≠ x.2.2 → upd s.node x.2.2 (some ⟨x.1, x.2.1, a.ptr, b.ptr, ctxPtr fs⟩) q = s.node q :=
    fun q hq => upd_other _ _ hq
  have K1 : ∀ p, Known s.node p → Known (upd s.node x.2.2 (some ⟨x.1, x.2.1, a.ptr, b.ptr, ctxPtr fs⟩)) p := by
    intro p hp q hq
    by_cases hqx : q = x.2.2
    · exact ⟨_, by rw [hqx, upd_eq]⟩
    · rw [F1 q hqx]; exact hp q hq
  have Hf1 := (F1 f.2.2 (by grind)).trans Hf
  obtain ⟨nd2, e2, hf2, R2, F2, K2⟩ := pm_setLeft' (s := s.put (upd s.node x.2.2 (some ⟨x.1, x.2.1, a.ptr, b.ptr, ctxPtr fs⟩)))
    Hf1 (Hb.frame fun q hq => F1 q (by grind)) (K1 _ Hc.known) (by grind) (by grind)
  rw [put_node] at F2
  have hx2 := (F2 x.2.2 (by grind) (by grind)).trans (upd_eq _ _ _)
  have hc2 : PRep nd2 (some f.2.2) c := Hc.frame fun q hq => by rw [F2 q (by grind) (by grind), F1 q (by grind)]
  obtain ⟨nd5, e5, hx5, R5, F5, K5⟩ := pm_setRight' (s := s.put nd2) (t := .node b f c) (p := ctxPtr fs)
    hx2 ⟨hf2, R2, hc2⟩ (K2 _ (K1 _ Ha.known))
    (by simp only [BTree.addrs, List.nodup_cons, List.nodup_append, List.mem_append, List.mem_cons]; grind)
    (by simp only [BTree.addrs, List.mem_append, List.mem_cons]; grind)
  simp only [put_node, BTree.addrs, List.mem_append, List.mem_cons] at F5
  have FF : ∀ q, q ≠ x.2.2 → q ≠ f.2.2 → q ∉ b.addrs → q ∉ c.addrs → nd5 q = s.node q := by
    intro q h1 h2 h3 h4
    rw [F5 q (by grind) (by grind), F2 q (by grind) (by grind), F1 q (by grind)]
  refine ⟨nd5, ?_, ⟨Hfs.frame fun q hq => ?_, ⟨hx5, Ha.frame fun q hq => ?_, R5⟩, ?_, ?_⟩⟩
  · exact (pm_bind_ok (pm_assert _ _)).trans <| (pm_bind_ok (pm_parent Hx)).trans <|
      (pm_bind_ok (pm_parent Hf)).trans <| (pm_bind_ok (pm_setParent _ Hx)).trans <|
      (pm_bind_ok (pm_right (s := s.put (upd s.node x.2.2 (some ⟨x.1, x.2.1, a.ptr, b.ptr, ctxPtr fs⟩))) (upd_eq _ _ _))).trans <|
      (pm_bind_ok e2).trans <| (pm_bind_ok e5).trans rfl
  · rw [put_node, FF q] <;> grind
  · rw [put_node, FF q] <;> grind
  · simp only [BTree.addrs, List.nodup_cons, List.nodup_append, List.mem_append, List.mem_cons, List.cons_append]; grind
  · intro q hq
    simp only [BTree.addrs, List.mem_append, List.mem_cons, List.cons_append] at hq
    exact hbd q (by grind)

/-- `__zag` -/
theorem pm_zag (Z : ZRep s (.node a x b) (⟨false, f, c⟩ :: fs) hole) :
    ∃ nd', pZag (plainClass X) (some x.2.2) s = (.ok (some x.2.2), s.put nd') ∧
      ZRep (s.put nd') (.node (.node c f a) x b) fs (some f.2.2) := by
  obtain ⟨⟨Hf, Hc, Hfs⟩, ⟨Hx, Ha, Hb⟩, hn, hbd⟩ := Z
  simp only [BTree.addrs, ctxAddrs, List.nodup_cons, List.nodup_append, List.mem_append, List.mem_cons, not_or,
    ne_eq, List.cons_append] at hn
  simp only [BTree.addrs, ctxAddrs, List.mem_append, List.mem_cons, List.cons_append] at hbd
  simp only [if_true, Bool.false_eq_true, if_false] at Hf
  have F1 : ∀ q, q ≠ x.2.2 → upd s.node x.2.2 (some ⟨x.1, x.2.1, a.ptr, b.ptr, ctxPtr fs⟩) q = s.node q :=
    fun q hq => upd_other _ _ hq
  have K1 : ∀ p, Known s.node p → Known (upd s.node x.2.2 (some ⟨x.1, x.2.1, a.ptr, b.ptr, ctxPtr fs⟩)) p := by
    intro p hp q hq
    by_cases hqx : q = x.2.2
    · exact ⟨_, by rw [hqx, upd_eq]⟩
    · rw [F1 q hqx]; exact hp q hq
  have Hf1 := (F1 f.2.2 (by grind)).trans Hf
  obtain ⟨nd2, e2, hf2, R2, F2, K2⟩ := pm_setRight' (s := s.put (upd s.node x.2.2 (some ⟨x.1, x.2.1, a.ptr, b.ptr, ctxPtr fs⟩)))
    Hf1 (Ha.frame fun q hq => F1 q (by grind)) (K1 _ Hc.known) (by grind) (by grind)
  rw [put_node] at F2
  have hx2 := (F2 x.2.2 (by grind) (by grind)).trans (upd_eq _ _ _)
  have hc2 : PRep nd2 (some f.2.2) c := Hc.frame fun q hq => by rw [F2 q (by grind) (by grind), F1 q (by grind)]
  obtain ⟨nd5, e5, hx5, R5, F5, K5⟩ := pm_setLeft' (s := s.put nd2) (t := .node c f a) (p := ctxPtr fs)
    hx2 ⟨hf2, hc2, R2⟩ (K2 _ (K1 _ Hb.known))
    (by simp only [BTree.addrs, List.nodup_cons, List.nodup_append, List.mem_append, List.mem_cons]; grind)
    (by simp only [BTree.addrs, List.mem_append, List.mem_cons]; grind)
  simp only [put_node, BTree.addrs, List.mem_append, List.mem_cons] at F5
  have FF : ∀ q, q ≠ x.2.2 → q ≠ f.2.2 → q ∉ a.addrs → q ∉ c.addrs → nd5 q = s.node q := by
    intro q h1 h2 h3 h4
    rw [F5 q (by grind) (by grind), F2 q (by grind) (by grind), F1 q (by grind)]
  refine ⟨nd5, ?_, ⟨Hfs.frame fun q hq => ?_, ⟨hx5, R5, Hb.frame fun q hq => ?_⟩, ?_, ?_⟩⟩
  · exact (pm_bind_ok (pm_assert _ _)).trans <| (pm_bind_ok (pm_parent Hx)).trans <|
      (pm_bind_ok (pm_parent Hf)).trans <| (pm_bind_ok (pm_setParent _ Hx)).trans <|
      (pm_bind_ok (pm_left (s := s.put (upd s.node x.2.2 (some ⟨x.1, x.2.1, a.ptr, b.ptr, ctxPtr fs⟩))) (upd_eq _ _ _))).trans <|
      (pm_bind_ok e2).trans <| (pm_bind_ok e5).trans rfl
  · rw [put_node, FF q] <;> grind
  · rw [put_node, FF q] <;> grind
  · simp only [BTree.addrs, List.nodup_cons, List.nodup_append, List.mem_append, List.mem_cons, List.cons_append]; grind
  · intro q hq
    simp only [BTree.addrs, List.mem_append, List.mem_cons, List.cons_append] at hq
    exact hbd q (by grind)

theorem pm_and (A B : PM N X Bool) {s : PTree N X} {u v : Bool} (hA : A s = (.ok u, s)) (hB : B s = (.ok v, s)) :
    pAnd A B s = (.ok (u && v), s) := by
  refine (pm_bind_ok hA).trans ?_
  cases u
  · rfl
  · exact hB

theorem pm_not (A : PM N X Bool) {s : PTree N X} {u : Bool} (hA : A s = (.ok u, s)) :
    pNot A s = (.ok (!u), s) := (pm_bind_ok hA).trans rfl

/-- the double step of the value model -/
def doubled (a b : ATree N X) (x : N × (X × Addr)) (F G : AFrame N X) : ATree N X :=
  match G.left, F.left with
  | true, true => .node a x (.node b F.w (.node F.other G.w G.other))
  | true, false => .node (.node F.other F.w a) x (.node b G.w G.other)
  | false, true => .node (.node G.other G.w a) x (.node b F.w F.other)
  | false, false => .node (.node (.node G.other G.w F.other) F.w a) x b

/-- the node stays the root of the subtree -/
theorem doubled_node (a b : ATree N X) (x : N × (X × Addr)) (F G : AFrame N X) :
    ∃ a' b', doubled a b x F G = .node a' x b' := by
  unfold doubled; split <;> exact ⟨_, _, rfl⟩

/-- one of the four double steps -/
theorem pm_double {F G : AFrame N X} (Z : ZRep s (.node a x b) (F :: G :: fs) hole) (hh : Known s.node hole)
    (h1 : sideOk F x.1 = true) (h2 : sideOk G F.w.1 = true) :
    ∃ nd', pDouble (plainClass X) (some F.w.2.2) (some x.2.2) s = (.ok (some x.2.2), s.put nd') ∧
      ZRep (s.put nd') (doubled a b x F G) fs (some G.w.2.2) := by
  have eF : pIsLeftChild (some F.w.2.2) s = (.ok G.left, s) := by
    rw [pm_isLeftChild Z.ctx.1 rfl Z.ctx.2.2.1]
    simp only [sideOk, beq_iff_eq] at h2
    rw [h2]
  have eX : pIsLeftChild (some x.2.2) s = (.ok F.left, s) := by
    rw [pm_isLeftChild Z.rep.1 rfl Z.ctx.1]
    simp only [sideOk, beq_iff_eq] at h1
    rw [h1]
  obtain ⟨fl, f, c⟩ := F
  obtain ⟨gl, g, d⟩ := G
  have start : pDouble (plainClass X) (some f.2.2) (some x.2.2) s = (if (gl && fl) then pZigZig (plainClass X) (some x.2.2)
      else if (gl && !fl) then pZigZag (plainClass X) (some x.2.2)
      else if (!gl && fl) then pZagZig (plainClass X) (some x.2.2) else pZagZag (plainClass X) (some x.2.2)) s := by
    refine (pm_bind_ok (pm_and _ _ eF eX)).trans ?_
    simp only
    split
    · rfl
    · refine (pm_bind_ok (pm_and _ _ eF (pm_not _ eX))).trans ?_
      simp only
      split
      · rfl
      · exact (pm_bind_ok (pm_and _ _ (pm_not _ eF) eX))
  rw [start]
  cases gl <;> cases fl
  · exact pm_zagZag Z hh
  · exact pm_zagZig Z
  · exact pm_zigZag Z
  · exact pm_zigZig Z hh

theorem ctx_length_le {s : PTree N X} {t : ATree N X} {fs : List (AFrame N X)} {hole : Option Addr}
    (h : ZRep s t fs hole) : t.addrs.length + fs.length ≤ s.next := by
  have h1 : fs.length ≤ (ctxAddrs fs).length := by
    clear h
    induction fs with
    | nil => simp
    | cons f fs ih => simp only [ctxAddrs, List.length_cons, List.length_append]; omega
  have := (List.subperm_of_subset h.nodup (l₂ := List.range s.next) fun a ha =>
    List.mem_range.mpr (h.bound a ha)).length_le
  simp only [List.length_append, List.length_range] at this
  omega

/-- `__splaying` -/
theorem pm_splaying : ∀ (fs : List (AFrame N X)) {s : PTree N X} {a b : ATree N X} {x : N × (X × Addr)}
    {hole : Option Addr} {T : ATree N X} (fuel : Nat), ZRep s (.node a x b) fs hole → Known s.node hole →
    splaying a x b fs = .ok T → fs.length < fuel →
    ∃ nd' h', pSplaying (plainClass X) fuel (some x.2.2) s = (.ok T.ptr, s.put nd') ∧ ZRep (s.put nd') T [] h'
  | [], s, a, b, x, hole, T, fuel, Z, hh, e, hf => by
    obtain ⟨n, rfl⟩ : ∃ n, fuel = n + 1 := ⟨fuel - 1, by omega⟩
    simp only [splaying, Except.ok.injEq] at e
    subst e
    refine ⟨s.node, hole, ?_, Z⟩
    rw [pSplaying]
    exact (pm_bind_ok (pm_assert _ _)).trans <| (pm_bind_ok (pm_parent Z.rep.1)).trans rfl
  | [⟨fl, f, c⟩], s, a, b, x, hole, T, fuel, Z, hh, e, hf => by
    obtain ⟨n, rfl⟩ : ∃ n, fuel = n + 1 := ⟨fuel - 1, by omega⟩
    simp only [splaying] at e
    split at e
    next hs =>
      have eX : pIsLeftChild (some x.2.2) s = (.ok fl, s) := by
        rw [pm_isLeftChild Z.rep.1 rfl Z.ctx.1]
        simp only [sideOk, beq_iff_eq] at hs
        rw [hs]
      have start : pSplaying (plainClass X) (n + 1) (some x.2.2) s =
          (if fl then pZig (plainClass X) (some x.2.2) else pZag (plainClass X) (some x.2.2)) s := by
        rw [pSplaying]
        exact (pm_bind_ok (pm_assert _ _)).trans <| (pm_bind_ok (pm_parent Z.rep.1)).trans <|
          (pm_bind_ok (pm_grandParent Z.rep.1 rfl Z.ctx.1)).trans <| (pm_bind_ok eX).trans rfl
      rw [start]
      cases fl
      · simp only [Bool.false_eq_true, if_false, Except.ok.injEq] at e
        subst e
        obtain ⟨nd', e', Z'⟩ := pm_zag Z
        exact ⟨nd', _, e', Z'⟩
      · simp only [if_true, Except.ok.injEq] at e
        subst e
        obtain ⟨nd', e', Z'⟩ := pm_zig Z
        exact ⟨nd', _, e', Z'⟩
    next => simp at e
  | F :: G :: fs, s, a, b, x, hole, T, fuel, Z, hh, e, hf => by
    obtain ⟨n, rfl⟩ : ∃ n, fuel = n + 1 := ⟨fuel - 1, by omega⟩
    have hs : sideOk F x.1 = true ∧ sideOk G F.w.1 = true := by
      rw [splaying] at e
      split at e
      · assumption
      · simp at e
    obtain ⟨a', b', hd⟩ := doubled_node a b x F G
    have e' : splaying a' x b' fs = .ok T := by
      rw [splaying, if_pos hs] at e
      obtain ⟨fl, f, c⟩ := F
      obtain ⟨gl, g, d⟩ := G
      cases gl <;> cases fl <;> simp only [doubled, BTree.node.injEq, true_and] at hd <;>
        obtain ⟨rfl, rfl⟩ := hd <;> exact e
    obtain ⟨nd1, e1, Z1⟩ := pm_double Z hh hs.1 hs.2
    rw [hd] at Z1
    have start : pSplaying (plainClass X) (n + 1) (some x.2.2) s =
        (if (ctxPtr fs).isSome then pSplaying (plainClass X) n (some x.2.2) else pure (some x.2.2)) (s.put nd1) := by
      rw [pSplaying]
      exact (pm_bind_ok (pm_assert _ _)).trans <| (pm_bind_ok (pm_parent Z.rep.1)).trans <|
        (pm_bind_ok (pm_grandParent Z.rep.1 rfl Z.ctx.1)).trans <| (pm_bind_ok e1).trans <|
        (pm_bind_ok (pm_parent Z1.rep.1)).trans rfl
    rw [start]
    cases fs with
    | nil =>
      simp only [splaying, Except.ok.injEq] at e'
      subst e'
      exact ⟨nd1, _, rfl, Z1⟩
    | cons f' fs' =>
      simp only [List.length_cons] at hf
      have hk : Known nd1 (some G.w.2.2) := by
        intro q hq
        cases hq
        have hm : G.w.2.2 ∈ (BTree.node a' x b').addrs := by
          rw [← hd]
          obtain ⟨fl, f, c⟩ := F
          obtain ⟨gl, g, d⟩ := G
          cases gl <;> cases fl <;> simp [doubled, BTree.addrs]
        exact Z1.rep.exists_of_mem hm
      obtain ⟨nd2, h2, e2, Z2⟩ := pm_splaying (f' :: fs') n Z1 hk e' (by simp only [List.length_cons]; omega)
      exact ⟨nd2, h2, e2, Z2⟩

end

end Extra
