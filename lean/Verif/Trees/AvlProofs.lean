import Verif.Trees.AvlSpec
import Verif.Trees.BstProofs
import Mathlib.Data.Nat.Fib.Basic

/-!
# Helper lemmas about `AVL`
-/

set_option linter.unusedSectionVars false
set_option linter.unusedSimpArgs false

namespace Extra
variable {N : Type} [LinearOrder N]

theorem hl_nil : (BTree.nil : BTree (N × Nat)).hl = 0 := rfl
theorem hl_node (l : BTree (N × Nat)) (w r) : (BTree.node l w r).hl = 1 + w.2 := rfl

/-- every stored height is one more than the larger of the children's -/
def hOk : BTree (N × Nat) → Prop
  | .nil => True
  | .node l w r => hOk l ∧ hOk r ∧ w.2 = max l.hl r.hl

/-- stored heights are right and every node is balanced -/
def avlOk : BTree (N × Nat) → Prop
  | .nil => True
  | .node l w r => avlOk l ∧ avlOk r ∧ w.2 = max l.hl r.hl ∧ l.hl ≤ r.hl + 1 ∧ r.hl ≤ l.hl + 1

theorem avlOk.hOk : ∀ {t : BTree (N × Nat)}, avlOk t → hOk t
  | .nil, _ => trivial
  | .node _ _ _, h => ⟨h.1.hOk, h.2.1.hOk, h.2.2.1⟩

theorem hOk.nlev : ∀ {t : BTree (N × Nat)}, Extra.hOk t → t.hl = t.nlev
  | .nil, _ => rfl
  | .node _ _ _, h => by
    simp only [hl_nil, hl_node, BTree.nlev, h.2.2, h.1.nlev, h.2.1.nlev]; omega

theorem heightsTrue_iff (t : BTree (N × Nat)) : HeightsTrue t ↔ hOk t := by
  constructor
  · intro h
    induction t with
    | nil => trivial
    | node l w r ihl ihr =>
      have hl := ihl (fun p a b c e => h (false :: p) a b c (by simpa [BTree.sub] using e))
      have hr := ihr (fun p a b c e => h (true :: p) a b c (by simpa [BTree.sub] using e))
      have := h [] l w r rfl
      refine ⟨hl, hr, ?_⟩
      simp only [BTree.nlev] at this
      rw [hl.nlev, hr.nlev]; omega
  · intro h p
    induction p generalizing t with
    | nil =>
      intro l w r e
      cases t with
      | nil => simp [BTree.sub] at e
      | node l' w' r' =>
        simp only [BTree.sub] at e
        rw [e] at h
        simp only [BTree.nlev, h.2.2, h.1.nlev, h.2.1.nlev]
    | cons b p ih =>
      intro l w r e
      cases t with
      | nil => simp [BTree.sub] at e
      | node l' w' r' =>
        cases b with
        | false => exact ih l' h.1 l w r (by simpa [BTree.sub] using e)
        | true => exact ih r' h.2.1 l w r (by simpa [BTree.sub] using e)

theorem avlOk_iff (t : BTree (N × Nat)) : avlOk t ↔ HeightsTrue t ∧ Balanced t := by
  rw [heightsTrue_iff]
  constructor
  · intro h
    refine ⟨h.hOk, fun p => ?_⟩
    induction p generalizing t with
    | nil =>
      intro l w r e
      cases t with
      | nil => simp [BTree.sub] at e
      | node l' w' r' =>
        simp only [BTree.sub] at e
        rw [e] at h
        rw [← h.1.hOk.nlev, ← h.2.1.hOk.nlev]
        exact h.2.2.2
    | cons b p ih =>
      intro l w r e
      cases t with
      | nil => simp [BTree.sub] at e
      | node l' w' r' =>
        cases b with
        | false => exact ih l' h.1 l w r (by simpa [BTree.sub] using e)
        | true => exact ih r' h.2.1 l w r (by simpa [BTree.sub] using e)
  · rintro ⟨h, k⟩
    induction t with
    | nil => trivial
    | node l w r ihl ihr =>
      have h0 := k [] l w r rfl
      rw [← h.1.nlev, ← h.2.1.nlev] at h0
      exact ⟨ihl h.1 (fun p a b c e => k (false :: p) a b c (by simpa [BTree.sub] using e)),
        ihr h.2.1 (fun p a b c e => k (true :: p) a b c (by simpa [BTree.sub] using e)), h.2.2, h0⟩

/-! ## Keys -/

@[simp] theorem avlNode_keys (l : BTree (N × Nat)) (v r) :
    (avlNode l v r).keys = l.keys ++ v :: r.keys := by simp [avlNode]

theorem rotateLeft_keys {t s : BTree (N × Nat)} (h : t.avlRotateLeft = .ok s) : s.keys = t.keys := by
  unfold BTree.avlRotateLeft at h
  split at h
  · cases h; simp
  · cases h

theorem rotateRight_keys {t s : BTree (N × Nat)} (h : t.avlRotateRight = .ok s) : s.keys = t.keys := by
  unfold BTree.avlRotateRight at h
  split at h
  · cases h; simp
  · cases h

theorem rotateLeftRight_keys {t s : BTree (N × Nat)} (h : t.avlRotateLeftRight = .ok s) :
    s.keys = t.keys := by
  unfold BTree.avlRotateLeftRight at h
  split at h
  · cases h; simp
  · cases h

theorem rotateRightLeft_keys {t s : BTree (N × Nat)} (h : t.avlRotateRightLeft = .ok s) :
    s.keys = t.keys := by
  unfold BTree.avlRotateRightLeft at h
  split at h
  · cases h; simp
  · cases h

theorem rebalance_keys {t s : BTree (N × Nat)} (h : t.rebalance = .ok s) : s.keys = t.keys := by
  unfold BTree.rebalance at h
  split at h
  · cases h
  · split at h
    · cases h
    · split at h
      · cases h
      · split_ifs at h
        · exact rotateRight_keys h
        · exact rotateLeftRight_keys h
        · exact rotateRightLeft_keys h
        · exact rotateLeft_keys h

theorem avlUp_keys {l r t : BTree (N × Nat)} {v rot} (h : avlUp l v r = .ok (t, rot)) :
    t.keys = l.keys ++ v :: r.keys := by
  unfold avlUp at h
  split_ifs at h
  · cases h; simp
  · cases e : (avlNode l v r).rebalance with
    | error => rw [e] at h; cases h
    | ok s =>
      rw [e] at h
      cases h
      rw [rebalance_keys e]; simp

theorem keys_ne_nil {t : BTree (N × Nat)} {a b : List N} {v} (h : t.keys = a ++ v :: b) : t ≠ .nil := by
  rintro rfl; simp at h

theorem avlUp_ne {l r t : BTree (N × Nat)} {v rot} (h : avlUp l v r = .ok (t, rot)) : t ≠ .nil :=
  keys_ne_nil (avlUp_keys h)

theorem root_mem {l r : BTree (N × Nat)} {w} : w.1 ∈ (BTree.node l w r).keys := by simp

theorem attachSide_left {w : N} {c : BTree (N × Nat)} (hc : c ≠ .nil) (h : ∀ x ∈ c.keys, x < w) :
    attachSide w c true = true := by
  cases c with
  | nil => exact absurd rfl hc
  | node l v r => simp [attachSide, h _ root_mem]

theorem attachSide_right {w : N} {c : BTree (N × Nat)} (hc : c ≠ .nil) (h : ∀ x ∈ c.keys, w < x) :
    attachSide w c false = true := by
  cases c with
  | nil => exact absurd rfl hc
  | node l v r => simp [attachSide, (h _ root_mem).le]

theorem avlLink_left {c o : BTree (N × Nat)} {rot : Bool} {w : N} (hc : rot = true → c ≠ .nil)
    (h : ∀ x ∈ c.keys, x < w) : avlLink true c rot w o = avlUp c w o := by
  unfold avlLink
  rw [if_neg, if_pos rfl]
  rintro ⟨a, b⟩
  rw [attachSide_left (hc a) h] at b
  cases b

theorem avlLink_right {c o : BTree (N × Nat)} {rot : Bool} {w : N} (hc : rot = true → c ≠ .nil)
    (h : ∀ x ∈ c.keys, w < x) : avlLink false c rot w o = avlUp o w c := by
  unfold avlLink
  rw [if_neg, if_neg (by simp)]
  rintro ⟨a, b⟩
  rw [attachSide_right (hc a) h] at b
  cases b

/-! ## Rebalancing -/

/-- the shape `_rebalance` gets wrong -/
def badShape : BTree (N × Nat) → Prop
  | .node pl _ (.node b bv c) => pl.hl = (BTree.node b bv c).hl ∧ b.hl + 2 = pl.hl
  | _ => False

theorem heavy_left {l r : BTree (N × Nat)} (h : r.hl < l.hl) : heavy l r = l := if_pos h
theorem heavy_right {l r : BTree (N × Nat)} (h : l.hl ≤ r.hl) : heavy l r = r := if_neg (not_lt.2 h)

theorem hl_pos {t : BTree (N × Nat)} (h : 0 < t.hl) : ∃ l w r, t = .node l w r := by
  cases t with
  | nil => simp [hl_nil, hl_node] at h
  | node l w r => exact ⟨l, w, r, rfl⟩

theorem up_balanced {l r : BTree (N × Nat)} (v : N) (h1 : l.hl ≤ r.hl + 1) (h2 : r.hl ≤ l.hl + 1) :
    avlUp l v r = .ok (avlNode l v r, false) := if_pos ⟨h1, h2⟩

/-- the left side is too heavy -/
theorem up_left_heavy {l r : BTree (N × Nat)} {v : N} (hl : avlOk l) (hr : hOk r)
    (hs : (l.keys ++ v :: r.keys).Pairwise (· < ·)) (hh : l.hl = r.hl + 2) :
    ∃ t, avlUp l v r = .ok (t, true) ∧ hOk t ∧ (t.hl = l.hl ∨ t.hl = l.hl + 1) ∧
      (avlOk r → ¬ badShape l → avlOk t) ∧
      (∀ pl p pr, l = .node pl p pr → pl.hl ≠ pr.hl → t.hl = l.hl) := by
  obtain ⟨pl, p, pr, rfl⟩ := hl_pos (t := l) (by omega)
  obtain ⟨k1, k2, k3, k4, k5⟩ := hl
  have hs' : (BTree.node (.node pl p pr) (v, 0) r).keys.Pairwise (· < ·) := by
    rw [BTree.keys_node]; exact hs
  obtain ⟨s1, s2, s3, s4⟩ := sorted_node.1 hs'
  obtain ⟨t1, t2, t3, t4⟩ := sorted_node.1 s1
  have hpv : p.1 < v := s3 _ root_mem
  have e0 : (BTree.node pl p pr).hl = 1 + p.2 := rfl
  rw [avlUp, if_neg (by omega), avlNode, BTree.rebalance, heavy_left (by omega)]
  simp only [gt_iff_lt, if_pos hpv]
  by_cases hc : pr.hl < pl.hl
  · obtain ⟨a, n, b, rfl⟩ := hl_pos (t := pl) (by omega)
    have hnp : n.1 < p.1 := t3 _ root_mem
    rw [heavy_left hc]
    simp only [if_pos hnp, BTree.avlRotateRight]
    refine ⟨_, rfl, ?_, ?_, ?_, ?_⟩
    · exact ⟨k1.hOk, ⟨k2.hOk, hr, rfl⟩, rfl⟩
    · left; simp only [avlNode, hl_nil, hl_node] at *; omega
    · rintro ho -
      refine ⟨k1, ⟨k2, ho, rfl, ?_, ?_⟩, rfl, ?_, ?_⟩ <;> simp only [avlNode, hl_nil, hl_node] at * <;> omega
    · rintro _ _ _ - -; simp only [avlNode, hl_nil, hl_node] at *; omega
  · have hc' : pl.hl ≤ pr.hl := not_lt.1 hc
    obtain ⟨b, n, c, rfl⟩ := hl_pos (t := pr) (by omega)
    have hpn : p.1 < n.1 := t4 _ root_mem
    rw [heavy_right hc']
    simp only [if_neg (not_lt.2 hpn.le), BTree.avlRotateLeftRight]
    obtain ⟨j1, j2, j3, j4, j5⟩ := k2
    refine ⟨_, rfl, ?_, ?_, ?_, ?_⟩
    · exact ⟨⟨k1.hOk, j1.hOk, rfl⟩, ⟨j2.hOk, hr, rfl⟩, rfl⟩
    · simp only [avlNode, hl_nil, hl_node] at *; omega
    · intro ho hb
      simp only [badShape, hl_nil, hl_node] at hb
      refine ⟨⟨k1, j1, rfl, ?_, ?_⟩, ⟨j2, ho, rfl, ?_, ?_⟩, rfl, ?_, ?_⟩ <;>
        simp only [avlNode, hl_nil, hl_node] at * <;> omega
    · rintro _ _ _ e hne
      obtain ⟨rfl, rfl, rfl⟩ := BTree.node.inj e
      simp only [avlNode, hl_nil, hl_node] at *; omega

/-- the right side is too heavy -/
theorem up_right_heavy {l r : BTree (N × Nat)} {v : N} (hl : hOk l) (hr : avlOk r)
    (hs : (l.keys ++ v :: r.keys).Pairwise (· < ·)) (hh : r.hl = l.hl + 2) :
    ∃ t, avlUp l v r = .ok (t, true) ∧ hOk t ∧ (t.hl = r.hl ∨ t.hl = r.hl + 1) ∧
      (avlOk l → avlOk t) ∧
      (∀ pl p pr, r = .node pl p pr → pl.hl ≠ pr.hl → t.hl = r.hl) := by
  obtain ⟨pl, p, pr, rfl⟩ := hl_pos (t := r) (by omega)
  obtain ⟨k1, k2, k3, k4, k5⟩ := hr
  have hs' : (BTree.node l (v, 0) (.node pl p pr)).keys.Pairwise (· < ·) := by
    rw [BTree.keys_node]; exact hs
  obtain ⟨s1, s2, s3, s4⟩ := sorted_node.1 hs'
  obtain ⟨t1, t2, t3, t4⟩ := sorted_node.1 s2
  have hpv : v < p.1 := s4 _ root_mem
  have e0 : (BTree.node pl p pr).hl = 1 + p.2 := rfl
  rw [avlUp, if_neg (by omega), avlNode, BTree.rebalance, heavy_right (by omega)]
  simp only [gt_iff_lt, if_neg (not_lt.2 hpv.le)]
  by_cases hc : pr.hl < pl.hl
  · obtain ⟨b, n, c, rfl⟩ := hl_pos (t := pl) (by omega)
    have hnp : n.1 < p.1 := t3 _ root_mem
    rw [heavy_left hc]
    simp only [if_pos hnp, BTree.avlRotateRightLeft]
    obtain ⟨j1, j2, j3, j4, j5⟩ := k1
    refine ⟨_, rfl, ?_, ?_, ?_, ?_⟩
    · exact ⟨⟨hl, j1.hOk, rfl⟩, ⟨j2.hOk, k2.hOk, rfl⟩, rfl⟩
    · left; simp only [avlNode, hl_nil, hl_node] at *; omega
    · intro ho
      refine ⟨⟨ho, j1, rfl, ?_, ?_⟩, ⟨j2, k2, rfl, ?_, ?_⟩, rfl, ?_, ?_⟩ <;>
        simp only [avlNode, hl_nil, hl_node] at * <;> omega
    · rintro _ _ _ - -; simp only [avlNode, hl_nil, hl_node] at *; omega
  · have hc' : pl.hl ≤ pr.hl := not_lt.1 hc
    obtain ⟨b, n, c, rfl⟩ := hl_pos (t := pr) (by omega)
    have hpn : p.1 < n.1 := t4 _ root_mem
    rw [heavy_right hc']
    simp only [if_neg (not_lt.2 hpn.le), BTree.avlRotateLeft]
    refine ⟨_, rfl, ?_, ?_, ?_, ?_⟩
    · exact ⟨⟨hl, k1.hOk, rfl⟩, k2.hOk, rfl⟩
    · simp only [avlNode, hl_nil, hl_node] at *; omega
    · intro ho
      refine ⟨⟨ho, k1, rfl, ?_, ?_⟩, k2, rfl, ?_, ?_⟩ <;> simp only [avlNode, hl_nil, hl_node] at * <;> omega
    · rintro _ _ _ e hne
      obtain ⟨rfl, rfl, rfl⟩ := BTree.node.inj e
      simp only [avlNode, hl_nil, hl_node] at *; omega

/-! ## Insertion -/

theorem avlInsert_keys (v : N) : ∀ {t t' : BTree (N × Nat)} {rot new},
    t.avlInsert v = .ok (t', rot, new) →
    t'.keys = (t.insertNode (v, 0)).1.keys ∧ new = (t.insertNode (v, 0)).2
  | .nil, t', rot, new, h => by cases h; simp [BTree.insertNode]
  | .node l w r, t', rot, new, h => by
    rw [insertNode_node]
    rw [BTree.avlInsert] at h
    split_ifs at h ⊢ with e e'
    · cases h; exact ⟨rfl, rfl⟩
    · cases h1 : l.avlInsert v with
      | error => rw [h1] at h; cases h
      | ok x =>
        obtain ⟨l', rt, nw⟩ := x
        obtain ⟨i1, i2⟩ := avlInsert_keys v h1
        rw [h1] at h
        cases h2 : avlLink true l' rt w.1 r with
        | error => simp only [bind, Except.bind, h2] at h; cases h
        | ok y =>
          simp only [bind, Except.bind, h2] at h
          cases h
          unfold avlLink at h2
          split_ifs at h2
          · exact ⟨by rw [avlUp_keys h2, i1]; simp, i2⟩
          · exact absurd rfl ‹_›
    · cases h1 : r.avlInsert v with
      | error => rw [h1] at h; cases h
      | ok x =>
        obtain ⟨r', rt, nw⟩ := x
        obtain ⟨i1, i2⟩ := avlInsert_keys v h1
        rw [h1] at h
        cases h2 : avlLink false r' rt w.1 l with
        | error => simp only [bind, Except.bind, h2] at h; cases h
        | ok y =>
          simp only [bind, Except.bind, h2] at h
          cases h
          unfold avlLink at h2
          split_ifs at h2
          · exact absurd ‹False› id
          · exact ⟨by rw [avlUp_keys h2, i1]; simp, i2⟩

theorem avlInsert_ok (v : N) : ∀ (t : BTree (N × Nat)), t.keys.Pairwise (· < ·) → avlOk t →
    ∃ t' rot new, t.avlInsert v = .ok (t', rot, new) ∧ avlOk t' ∧
      (t'.hl = t.hl ∨ t'.hl = t.hl + 1) ∧
      (t'.hl = t.hl + 1 → t ≠ .nil → ∀ a b c, t' = .node a b c → a.hl ≠ c.hl) ∧
      (new = false → t' = t)
  | .nil, _, _ => ⟨_, _, _, rfl, by simp [avlOk, hl_nil, hl_node], by simp [hl_nil, hl_node], by simp, by simp⟩
  | .node l w r, hs, ho => by
    obtain ⟨o1, o2, o3, o4, o5⟩ := ho
    have hs0 := hs
    obtain ⟨s1, s2, s3, s4⟩ := sorted_node.1 hs
    have eh : (BTree.node l w r).hl = 1 + w.2 := rfl
    rw [BTree.avlInsert]
    split_ifs with e e'
    · exact ⟨_, _, _, rfl, ⟨o1, o2, o3, o4, o5⟩, Or.inl rfl, fun k => by omega, fun _ => rfl⟩
    · obtain ⟨l', rot, new, h1, h2, h3, h4, h5⟩ := avlInsert_ok v l s1 o1
      obtain ⟨i1, i2⟩ := avlInsert_keys v h1
      have hlt : ∀ x ∈ l'.keys, x < w.1 := by
        intro x hx
        rw [i1, insertNode_mem] at hx
        rcases hx with rfl | hx
        · exact e'
        · exact s3 x hx
      have hne : l' ≠ .nil := by
        rintro rfl
        have : v ∈ (BTree.nil : BTree (N × Nat)).keys := by
          rw [i1]; exact (insertNode_mem (v, 0) l v).2 (Or.inl rfl)
        simp at this
      have hss : (l'.keys ++ w.1 :: r.keys).Pairwise (· < ·) := by
        have := (sorted_node (l := l') (w := w) (r := r)).2
          ⟨by rw [i1]; exact insertNode_sorted (v, 0) l s1, s2, hlt, s4⟩
        rwa [BTree.keys_node] at this
      have hup : ∃ t' rot', avlUp l' w.1 r = .ok (t', rot') ∧ avlOk t' ∧
          (t'.hl = 1 + w.2 ∨ t'.hl = 1 + w.2 + 1) ∧
          (t'.hl = 1 + w.2 + 1 → ∀ a b c, t' = .node a b c → a.hl ≠ c.hl) ∧
          (l' = l → t' = .node l w r) := by
        by_cases hb : l'.hl ≤ r.hl + 1
        · rw [up_balanced w.1 hb (by omega)]
          refine ⟨_, _, rfl, ⟨h2, o2, rfl, hb, by omega⟩, ?_, ?_, ?_⟩
          · simp only [avlNode, hl_nil, hl_node]; omega
          · rintro k a b c e
            obtain ⟨rfl, rfl, rfl⟩ := BTree.node.inj e
            simp only [avlNode, hl_nil, hl_node] at k ⊢
            omega
          · rintro rfl
            simp only [avlNode, ← o3]
        · obtain ⟨t', u1, u2, u3, u4, u5⟩ := up_left_heavy h2 o2.hOk hss (by omega)
          obtain ⟨a, b, c, rfl⟩ := hl_pos (t := l') (by omega)
          have hsk : a.hl ≠ c.hl := h4 (by omega) (by rintro rfl; simp [hl_nil, hl_node] at *; omega) a b c rfl
          have hnb : ¬ badShape (BTree.node a b c) := by
            cases c with
            | nil => exact id
            | node c1 c2 c3 => exact fun k => hsk k.1
          have hhl := u5 a b c rfl hsk
          refine ⟨t', _, u1, u4 o2 hnb, by omega, fun k => by omega, ?_⟩
          rintro rfl; omega
      obtain ⟨t', rot', u1, u2, u3, u4, u5⟩ := hup
      refine ⟨t', rot', new, ?_, u2, by omega, fun k _ => u4 (by omega), fun k => u5 (h5 k)⟩
      rw [h1]
      simp only [bind, Except.bind, avlLink_left (fun _ => hne) hlt, u1]
      rfl
    · obtain ⟨r', rot, new, h1, h2, h3, h4, h5⟩ := avlInsert_ok v r s2 o2
      obtain ⟨i1, i2⟩ := avlInsert_keys v h1
      have hvw : w.1 < v := lt_of_le_of_ne (not_lt.1 e') (Ne.symm e)
      have hlt : ∀ x ∈ r'.keys, w.1 < x := by
        intro x hx
        rw [i1, insertNode_mem] at hx
        rcases hx with rfl | hx
        · exact hvw
        · exact s4 x hx
      have hne : r' ≠ .nil := by
        rintro rfl
        have : v ∈ (BTree.nil : BTree (N × Nat)).keys := by
          rw [i1]; exact (insertNode_mem (v, 0) r v).2 (Or.inl rfl)
        simp at this
      have hss : (l.keys ++ w.1 :: r'.keys).Pairwise (· < ·) := by
        have := (sorted_node (l := l) (w := w) (r := r')).2
          ⟨s1, by rw [i1]; exact insertNode_sorted (v, 0) r s2, s3, hlt⟩
        rwa [BTree.keys_node] at this
      have hup : ∃ t' rot', avlUp l w.1 r' = .ok (t', rot') ∧ avlOk t' ∧
          (t'.hl = 1 + w.2 ∨ t'.hl = 1 + w.2 + 1) ∧
          (t'.hl = 1 + w.2 + 1 → ∀ a b c, t' = .node a b c → a.hl ≠ c.hl) ∧
          (r' = r → t' = .node l w r) := by
        by_cases hb : r'.hl ≤ l.hl + 1
        · rw [up_balanced w.1 (by omega) hb]
          refine ⟨_, _, rfl, ⟨o1, h2, rfl, by omega, hb⟩, ?_, ?_, ?_⟩
          · simp only [avlNode, hl_nil, hl_node]; omega
          · rintro k a b c e
            obtain ⟨rfl, rfl, rfl⟩ := BTree.node.inj e
            simp only [avlNode, hl_nil, hl_node] at k ⊢
            omega
          · rintro rfl
            simp only [avlNode, ← o3]
        · obtain ⟨t', u1, u2, u3, u4, u5⟩ := up_right_heavy o1.hOk h2 hss (by omega)
          obtain ⟨a, b, c, rfl⟩ := hl_pos (t := r') (by omega)
          have hsk : a.hl ≠ c.hl := h4 (by omega) (by rintro rfl; simp [hl_nil, hl_node] at *; omega) a b c rfl
          have hhl := u5 a b c rfl hsk
          refine ⟨t', _, u1, u4 o1, by omega, fun k => by omega, ?_⟩
          rintro rfl; omega
      obtain ⟨t', rot', u1, u2, u3, u4, u5⟩ := hup
      refine ⟨t', rot', new, ?_, u2, by omega, fun k _ => u4 (by omega), fun k => u5 (h5 k)⟩
      rw [h1]
      simp only [bind, Except.bind, avlLink_right (fun _ => hne) hlt, u1]
      rfl

/-! ## Removal -/

/-- somewhere in the tree is a node `_rebalance` gets wrong when its right side loses a level -/
def hasBad : BTree (N × Nat) → Prop
  | .nil => False
  | .node l _ r => hasBad l ∨ hasBad r ∨ (l.hl = r.hl + 1 ∧ badShape l)

theorem hasBad_of_iff (t : BTree (N × Nat)) (h : hOk t) : hasBad t → BadTie t := by
  induction t with
  | nil => exact fun k => k.elim
  | node l w r ihl ihr =>
    rintro (k | k | ⟨k1, k2⟩)
    · obtain ⟨p, a⟩ := ihl h.1 k
      exact ⟨false :: p, by simpa [BTree.sub] using a⟩
    · obtain ⟨p, a⟩ := ihr h.2.1 k
      exact ⟨true :: p, by simpa [BTree.sub] using a⟩
    · obtain ⟨hl, hr, _⟩ := h
      rcases l with _ | ⟨pl, pv, _ | ⟨b, bv, c⟩⟩
      · exact k2.elim
      · exact k2.elim
      · refine ⟨[], pl, pv, b, bv, c, w, r, rfl, ?_, ?_, ?_⟩
        · rw [← hl.nlev, ← hr.nlev, k1]
        · rw [← hl.1.nlev, ← hl.2.1.nlev, k2.1]
        · rw [← hl.1.nlev, ← hl.2.1.1.nlev, k2.2]

theorem up_left_lost {l l' r : BTree (N × Nat)} {v : N} (hl' : hOk l') (hr : avlOk r)
    (hs : (l'.keys ++ v :: r.keys).Pairwise (· < ·)) (b1 : l.hl ≤ r.hl + 1) (b2 : r.hl ≤ l.hl + 1)
    (hh : l'.hl = l.hl ∨ l'.hl + 1 = l.hl) :
    ∃ t rot, avlUp l' v r = .ok (t, rot) ∧ hOk t ∧
      (t.hl = 1 + max l.hl r.hl ∨ t.hl + 1 = 1 + max l.hl r.hl) ∧ (avlOk l' → avlOk t) := by
  by_cases hb : r.hl ≤ l'.hl + 1
  · refine ⟨_, _, up_balanced v (by omega) hb, ⟨hl', hr.hOk, rfl⟩, ?_,
      fun k => ⟨k, hr, rfl, by omega, hb⟩⟩
    simp only [avlNode, hl_node]; omega
  · obtain ⟨t, u1, u2, u3, u4, _⟩ := up_right_heavy hl' hr hs (by omega)
    exact ⟨t, _, u1, u2, by omega, u4⟩

theorem up_right_lost {l r r' : BTree (N × Nat)} {v : N} (hl : avlOk l) (hr' : hOk r')
    (hs : (l.keys ++ v :: r'.keys).Pairwise (· < ·)) (b1 : l.hl ≤ r.hl + 1) (b2 : r.hl ≤ l.hl + 1)
    (hh : r'.hl = r.hl ∨ r'.hl + 1 = r.hl) :
    ∃ t rot, avlUp l v r' = .ok (t, rot) ∧ hOk t ∧
      (t.hl = 1 + max l.hl r.hl ∨ t.hl + 1 = 1 + max l.hl r.hl) ∧
      (avlOk r' → ¬ (l.hl = r.hl + 1 ∧ badShape l) → avlOk t) := by
  by_cases hb : l.hl ≤ r'.hl + 1
  · refine ⟨_, _, up_balanced v hb (by omega), ⟨hl.hOk, hr', rfl⟩, ?_,
      fun k _ => ⟨hl, k, rfl, hb, by omega⟩⟩
    simp only [avlNode, hl_node]; omega
  · obtain ⟨t, u1, u2, u3, u4, _⟩ := up_left_heavy hl hr' hs (by omega)
    exact ⟨t, _, u1, u2, by omega, fun k k' => u4 k (fun k'' => k' ⟨by omega, k''⟩)⟩

theorem hl_zero {t : BTree (N × Nat)} (h : t.hl = 0) : t = .nil := by
  cases t with
  | nil => rfl
  | node l w r => simp only [hl_node] at h; omega

theorem avlSink_right {w : N × Nat} {r : BTree (N × Nat)} (h : avlOk (.node .nil w r)) :
    (BTree.node .nil w r).keys = w.1 :: (BTree.node .nil w r).avlSink.keys ∧
    avlOk (BTree.node .nil w r).avlSink ∧
    (BTree.node .nil w r).avlSink.hl + 1 = (BTree.node .nil w r).hl := by
  obtain ⟨_, h2, h3, h4, h5⟩ := h
  cases r with
  | nil => simp [BTree.avlSink, avlOk, hl_nil, hl_node, h3]
  | node rl rv rr =>
    obtain ⟨j1, j2, j3, _, _⟩ := h2
    simp only [hl_nil, hl_node] at h3 h4 h5
    have e1 := hl_zero (t := rl) (by omega)
    have e2 := hl_zero (t := rr) (by omega)
    subst e1; subst e2
    simp only [BTree.avlSink, avlNode_keys, BTree.keys_node, BTree.keys_nil, avlOk, avlNode, hl_nil,
      hl_node, List.nil_append] at *
    refine ⟨trivial, by simp, by omega⟩

theorem avlSink_left {w : N × Nat} {l : BTree (N × Nat)} (h : avlOk (.node l w .nil)) :
    (BTree.node l w .nil).keys = (BTree.node l w .nil).avlSink.keys ++ [w.1] ∧
    avlOk (BTree.node l w .nil).avlSink ∧
    (BTree.node l w .nil).avlSink.hl + 1 = (BTree.node l w .nil).hl := by
  obtain ⟨h2, _, h3, h4, h5⟩ := h
  cases l with
  | nil => simp [BTree.avlSink, avlOk, hl_nil, hl_node, h3]
  | node ll lv lr =>
    obtain ⟨j1, j2, j3, _, _⟩ := h2
    simp only [hl_nil, hl_node] at h3 h4 h5
    have e1 := hl_zero (t := ll) (by omega)
    have e2 := hl_zero (t := lr) (by omega)
    subst e1; subst e2
    simp only [BTree.avlSink, avlNode_keys, BTree.keys_node, BTree.keys_nil, avlOk, avlNode, hl_nil,
      hl_node, List.nil_append] at *
    refine ⟨trivial, by simp, by omega⟩

theorem avlTakeMin_spec : ∀ (t : BTree (N × Nat)), t ≠ .nil → t.keys.Pairwise (· < ·) → avlOk t →
    ∃ m t' rot, t.avlTakeMin = .ok (m, t', rot) ∧ t.keys = m :: t'.keys ∧ hOk t' ∧
      (t'.hl = t.hl ∨ t'.hl + 1 = t.hl) ∧ (rot = true → t' ≠ .nil) ∧ (¬ hasBad t → avlOk t')
  | .nil, h, _, _ => absurd rfl h
  | .node .nil w r, _, _, ho => by
    obtain ⟨a, b, c⟩ := avlSink_right ho
    exact ⟨_, _, _, rfl, a, b.hOk, Or.inr c, by simp, fun _ => b⟩
  | .node (.node ll lv lr) w r, _, hs, ho => by
    obtain ⟨s1, s2, s3, s4⟩ := sorted_node.1 hs
    obtain ⟨o1, o2, o3, o4, o5⟩ := ho
    obtain ⟨m, l', rot, e, k, h1, h2, h3, h4⟩ := avlTakeMin_spec (.node ll lv lr) (by simp) s1 o1
    have hs' : (l'.keys ++ w.1 :: r.keys).Pairwise (· < ·) := by
      rw [BTree.keys_node, k] at hs
      exact (List.pairwise_cons.1 hs).2
    obtain ⟨t', rot', u1, u2, u3, u4⟩ := up_left_lost h1 o2 hs' o4 o5 h2
    refine ⟨m, t', rot', ?_, ?_, u2, ?_, fun _ => avlUp_ne u1, fun hb => u4 (h4 (fun q => hb (Or.inl q)))⟩
    · rw [BTree.avlTakeMin, e]
      simp only [bind, Except.bind]
      rw [avlLink_left h3 (fun x hx => s3 x (by rw [k]; exact List.mem_cons_of_mem _ hx)), u1]
      rfl
    · rw [avlUp_keys u1, BTree.keys_node _ w, k]; rfl
    · rw [hl_node _ w, o3]; exact u3

theorem avlTakeMax_spec : ∀ (t : BTree (N × Nat)), t ≠ .nil → t.keys.Pairwise (· < ·) → avlOk t →
    ∃ m t' rot, t.avlTakeMax = .ok (m, t', rot) ∧ t.keys = t'.keys ++ [m] ∧ hOk t' ∧
      (t'.hl = t.hl ∨ t'.hl + 1 = t.hl) ∧ (rot = true → t' ≠ .nil) ∧ (¬ hasBad t → avlOk t')
  | .nil, h, _, _ => absurd rfl h
  | .node l w .nil, _, _, ho => by
    obtain ⟨a, b, c⟩ := avlSink_left ho
    exact ⟨_, _, _, by rw [BTree.avlTakeMax], a, b.hOk, Or.inr c, by simp, fun _ => b⟩
  | .node l w (.node rl rv rr), _, hs, ho => by
    obtain ⟨s1, s2, s3, s4⟩ := sorted_node.1 hs
    obtain ⟨o1, o2, o3, o4, o5⟩ := ho
    obtain ⟨m, r', rot, e, k, h1, h2, h3, h4⟩ := avlTakeMax_spec (.node rl rv rr) (by simp) s2 o2
    have hk : (BTree.node l w (.node rl rv rr)).keys = (l.keys ++ w.1 :: r'.keys) ++ [m] := by
      rw [BTree.keys_node l w, k]; simp
    have hs' : (l.keys ++ w.1 :: r'.keys).Pairwise (· < ·) := by
      rw [hk] at hs
      exact (List.pairwise_append.1 hs).1
    obtain ⟨t', rot', u1, u2, u3, u4⟩ := up_right_lost o1 h1 hs' o4 o5 h2
    refine ⟨m, t', rot', ?_, ?_, u2, ?_, fun _ => avlUp_ne u1,
      fun hb => u4 (h4 (fun q => hb (Or.inr (Or.inl q)))) (fun q => hb (Or.inr (Or.inr q)))⟩
    · rw [BTree.avlTakeMax, e]
      simp only [bind, Except.bind]
      rw [avlLink_right h3 (fun x hx => s4 x (by rw [k]; exact List.mem_append_left _ hx)), u1]
      rfl
    · rw [avlUp_keys u1, hk]
    · rw [hl_node _ w, o3]; exact u3

theorem avlRemoveRoot_spec (l : BTree (N × Nat)) (w r) (hs : (BTree.node l w r).keys.Pairwise (· < ·))
    (ho : avlOk (.node l w r)) :
    ∃ t' rot, (BTree.node l w r).avlRemoveRoot = .ok (t', rot) ∧ t'.keys = l.keys ++ r.keys ∧ hOk t' ∧
      (t'.hl = (BTree.node l w r).hl ∨ t'.hl + 1 = (BTree.node l w r).hl) ∧
      (rot = true → t' ≠ .nil) ∧ (¬ hasBad (.node l w r) → avlOk t') := by
  obtain ⟨s1, s2, s3, s4⟩ := sorted_node.1 hs
  obtain ⟨o1, o2, o3, o4, o5⟩ := ho
  cases r with
  | node rl rv rr =>
    obtain ⟨m, r', rot, e, k, h1, h2, h3, h4⟩ := avlTakeMin_spec (.node rl rv rr) (by simp) s2 o2
    have hs' : (l.keys ++ m :: r'.keys).Pairwise (· < ·) := by
      rw [← k]
      rw [BTree.keys_node l w] at hs
      exact hs.sublist (List.Sublist.append_left (List.sublist_cons_self _ _) _)
    obtain ⟨t', rot', u1, u2, u3, u4⟩ := up_right_lost o1 h1 hs' o4 o5 h2
    refine ⟨t', rot', ?_, ?_, u2, ?_, fun _ => avlUp_ne u1,
      fun hb => u4 (h4 (fun q => hb (Or.inr (Or.inl q)))) (fun q => hb (Or.inr (Or.inr q)))⟩
    · simp only [BTree.avlRemoveRoot, e, bind, Except.bind]
      rw [avlLink_right h3, u1]
      intro x hx
      rw [k, List.pairwise_cons] at s2
      exact s2.1 x hx
    · rw [avlUp_keys u1, k]
    · rw [hl_node _ w, o3]; exact u3
  | nil =>
    cases l with
    | nil =>
      simp only [BTree.avlRemoveRoot]
      refine ⟨_, _, rfl, by simp, trivial, ?_, by simp, fun _ => trivial⟩
      simp only [hl_nil, hl_node] at *; omega
    | node ll lv lr =>
      obtain ⟨m, l', rot, e, k, h1, h2, h3, h4⟩ := avlTakeMax_spec (.node ll lv lr) (by simp) s1 o1
      rw [k] at s1
      obtain ⟨p1, p2, p3⟩ := List.pairwise_append.1 s1
      have hs' : (l'.keys ++ m :: (BTree.nil : BTree (N × Nat)).keys).Pairwise (· < ·) := s1
      obtain ⟨t', rot', u1, u2, u3, u4⟩ := up_left_lost h1 o2 hs' o4 o5 h2
      refine ⟨t', rot', ?_, ?_, u2, ?_, fun _ => avlUp_ne u1,
        fun hb => u4 (h4 (fun q => hb (Or.inl q)))⟩
      · simp only [BTree.avlRemoveRoot, e, bind, Except.bind]
        rw [avlLink_left h3, u1]
        intro x hx
        exact p3 x hx m (by simp)
      · rw [avlUp_keys u1, k]; simp
      · rw [hl_node _ w, o3]; exact u3

theorem avlRemove_spec (v : N) : ∀ (t : BTree (N × Nat)), t.keys.Pairwise (· < ·) → avlOk t →
    (v ∉ t.keys → t.avlRemove v = .ok none) ∧
    (v ∈ t.keys → ∃ t' rot A B, t.avlRemove v = .ok (some (t', rot)) ∧ t.keys = A ++ v :: B ∧
      t'.keys = A ++ B ∧ hOk t' ∧ (t'.hl = t.hl ∨ t'.hl + 1 = t.hl) ∧
      (rot = true → t' ≠ .nil) ∧ (¬ hasBad t → avlOk t'))
  | .nil, _, _ => ⟨fun _ => rfl, by simp⟩
  | .node l w r, hs, ho => by
    have ho0 := ho
    obtain ⟨s1, s2, s3, s4⟩ := sorted_node.1 hs
    obtain ⟨o1, o2, o3, o4, o5⟩ := ho
    rw [BTree.avlRemove]
    split_ifs with e e'
    · subst e
      refine ⟨fun h => absurd root_mem h, fun _ => ?_⟩
      obtain ⟨t', rot, a, b, c⟩ := avlRemoveRoot_spec l w r hs ho0
      exact ⟨t', rot, l.keys, r.keys, by rw [a]; rfl, by simp, b, c⟩
    · obtain ⟨i1, i2⟩ := avlRemove_spec v l s1 o1
      have hm : v ∈ (BTree.node l w r).keys ↔ v ∈ l.keys := by
        simp only [BTree.keys_node, List.mem_append, List.mem_cons]
        exact ⟨fun k => k.elim id (fun k => k.elim (fun k => absurd k e)
          (fun k => absurd (s4 _ k) (not_lt.2 e'.le))), Or.inl⟩
      rw [hm]
      refine ⟨fun h => by rw [i1 h]; rfl, fun h => ?_⟩
      obtain ⟨l', rot, A, B, a1, a2, a3, a4, a5, a6, a7⟩ := i2 h
      have hsub : ∀ x ∈ l'.keys, x ∈ l.keys := by
        intro x hx
        rw [a2]; rw [a3] at hx
        rcases List.mem_append.1 hx with hx | hx
        · exact List.mem_append_left _ hx
        · exact List.mem_append_right _ (List.mem_cons_of_mem _ hx)
      have hs' : (l'.keys ++ w.1 :: r.keys).Pairwise (· < ·) := by
        rw [BTree.keys_node, a2] at hs
        rw [a3]
        exact hs.sublist ((List.Sublist.append_left (List.sublist_cons_self _ _) _).append_right _)
      obtain ⟨t', rot', u1, u2, u3, u4⟩ := up_left_lost a4 o2 hs' o4 o5 a5
      refine ⟨t', rot', A, B ++ w.1 :: r.keys, ?_, ?_, ?_, u2, ?_, fun _ => avlUp_ne u1,
        fun hb => u4 (a7 (fun q => hb (Or.inl q)))⟩
      · rw [a1]
        simp only [bind, Except.bind]
        rw [avlLink_left a6 (fun x hx => s3 x (hsub x hx)), u1]
        rfl
      · rw [BTree.keys_node, a2]; simp
      · rw [avlUp_keys u1, a3]; simp
      · rw [hl_node, o3]; exact u3
    · obtain ⟨i1, i2⟩ := avlRemove_spec v r s2 o2
      have hm : v ∈ (BTree.node l w r).keys ↔ v ∈ r.keys := by
        simp only [BTree.keys_node, List.mem_append, List.mem_cons]
        exact ⟨fun k => k.elim (fun k => absurd (s3 _ k) e') (fun k => k.elim (fun k => absurd k e) id),
          fun k => Or.inr (Or.inr k)⟩
      rw [hm]
      refine ⟨fun h => by rw [i1 h]; rfl, fun h => ?_⟩
      obtain ⟨r', rot, A, B, a1, a2, a3, a4, a5, a6, a7⟩ := i2 h
      have hsub : ∀ x ∈ r'.keys, x ∈ r.keys := by
        intro x hx
        rw [a2]; rw [a3] at hx
        rcases List.mem_append.1 hx with hx | hx
        · exact List.mem_append_left _ hx
        · exact List.mem_append_right _ (List.mem_cons_of_mem _ hx)
      have hs' : (l.keys ++ w.1 :: r'.keys).Pairwise (· < ·) := by
        rw [BTree.keys_node, a2] at hs
        rw [a3]
        exact hs.sublist (List.Sublist.append_left (List.Sublist.cons_cons _
          (List.Sublist.append_left (List.sublist_cons_self _ _) _)) _)
      obtain ⟨t', rot', u1, u2, u3, u4⟩ := up_right_lost o1 a4 hs' o4 o5 a5
      refine ⟨t', rot', l.keys ++ w.1 :: A, B, ?_, ?_, ?_, u2, ?_, fun _ => avlUp_ne u1,
        fun hb => u4 (a7 (fun q => hb (Or.inr (Or.inl q)))) (fun q => hb (Or.inr (Or.inr q)))⟩
      · rw [a1]
        simp only [bind, Except.bind]
        rw [avlLink_right a6 (fun x hx => s4 x (hsub x hx)), u1]
        rfl
      · rw [BTree.keys_node, a2]; simp
      · rw [avlUp_keys u1, a3]; simp
      · rw [hl_node, o3]; exact u3

/-! ## The height is logarithmic -/

theorem fib_le (t : BTree (N × Nat)) (h : avlOk t) : Nat.fib (t.hl + 2) ≤ t.keys.length + 1 := by
  induction t with
  | nil => simp [hl_nil]
  | node l w r ihl ihr =>
    obtain ⟨o1, o2, o3, o4, o5⟩ := h
    have il := ihl o1
    have ir := ihr o2
    have e : (BTree.node l w r).hl + 2 = (w.2 + 1) + 2 := by rw [hl_node]; omega
    rw [e, Nat.fib_add_two, BTree.keys_node, List.length_append, List.length_cons]
    rcases le_total l.hl r.hl with k | k
    · have h1 : Nat.fib (w.2 + 1) ≤ Nat.fib (l.hl + 2) := Nat.fib_mono (by omega)
      have h2 : Nat.fib (w.2 + 1 + 1) ≤ Nat.fib (r.hl + 2) := Nat.fib_mono (by omega)
      omega
    · have h1 : Nat.fib (w.2 + 1) ≤ Nat.fib (r.hl + 2) := Nat.fib_mono (by omega)
      have h2 : Nat.fib (w.2 + 1 + 1) ≤ Nat.fib (l.hl + 2) := Nat.fib_mono (by omega)
      omega

end Extra
