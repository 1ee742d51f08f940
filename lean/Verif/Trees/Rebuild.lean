import Verif.Trees.AvlProofs
import Verif.Trees.BinTreeProofs

/-!
# Inserting numbers one after another

Lemmas for C79: which tree a sequence of inserts builds.
-/

set_option linter.unusedSectionVars false

namespace Extra
variable {N X Y : Type} [LinearOrder N]

/-- the number at a path -/
def BTree.keyAt (t : BTree (N × X)) (p : List Bool) : Option N := (t.at p).map Prod.fst

@[simp] theorem keyAt_nil (p : List Bool) : (BTree.nil : BTree (N × X)).keyAt p = none := by
  cases p <;> rfl
@[simp] theorem keyAt_root (l : BTree (N × X)) (w r) : (BTree.node l w r).keyAt [] = some w.1 := rfl
@[simp] theorem keyAt_left (l : BTree (N × X)) (w r p) :
    (BTree.node l w r).keyAt (false :: p) = l.keyAt p := rfl
@[simp] theorem keyAt_right (l : BTree (N × X)) (w r p) :
    (BTree.node l w r).keyAt (true :: p) = r.keyAt p := rfl

theorem keyAt_mem (t : BTree (N × X)) (x : N) : (∃ p, t.keyAt p = some x) ↔ x ∈ t.keys := by
  rw [← holds_iff]
  simp [Holds, BTree.keyAt]

theorem keyAt_keys {t : BTree (N × X)} {p x} (h : t.keyAt p = some x) : x ∈ t.keys :=
  (keyAt_mem t x).1 ⟨p, h⟩

theorem keyAt_inj (t : BTree (N × X)) (h : t.keys.Pairwise (· < ·)) : ∀ p q x, t.keyAt p = some x →
    t.keyAt q = some x → p = q := by
  induction t with
  | nil => simp
  | node l w r ihl ihr =>
    obtain ⟨hl, hr, h1, h2⟩ := sorted_node.1 h
    rintro (_ | ⟨_ | _, p⟩) (_ | ⟨_ | _, q⟩) x <;>
      simp only [keyAt_root, keyAt_left, keyAt_right, Option.some.injEq] <;> intro a b
    · trivial
    · subst a; exact absurd (h1 _ (keyAt_keys b)) (lt_irrefl _)
    · subst a; exact absurd (h2 _ (keyAt_keys b)) (lt_irrefl _)
    · subst b; exact absurd (h1 _ (keyAt_keys a)) (lt_irrefl _)
    · rw [ihl hl p q x a b]
    · exact absurd ((h1 _ (keyAt_keys a)).trans (h2 _ (keyAt_keys b))) (lt_irrefl _)
    · subst b; exact absurd (h2 _ (keyAt_keys a)) (lt_irrefl _)
    · exact absurd ((h1 _ (keyAt_keys b)).trans (h2 _ (keyAt_keys a))) (lt_irrefl _)
    · rw [ihr hr p q x a b]

/-- the numbers of a tree in their places decide the tree -/
theorem keyAt_ext : ∀ (s t : BTree (N × Unit)), (∀ p, s.keyAt p = t.keyAt p) → s = t
  | .nil, .nil, _ => rfl
  | .nil, .node l w r, h => by simpa using h []
  | .node l w r, .nil, h => by simpa using h []
  | .node l w r, .node l' w' r', h => by
    have h0 := h []
    simp only [keyAt_root, Option.some.injEq] at h0
    rw [keyAt_ext l l' (fun p => h (false :: p)), keyAt_ext r r' (fun p => h (true :: p)),
      Prod.ext h0 rfl]

/-! ## Inserts -/

/-- insert one number -/
def ins (t : BTree (N × Unit)) (v : N) : BTree (N × Unit) := (t.insertNode (v, ())).1

/-- insert numbers into an empty tree -/
def planted (L : List N) : BTree (N × Unit) := L.foldl ins .nil

theorem foldl_ins_node (L : List N) : ∀ (l : BTree (N × Unit)) (w r),
    L.foldl ins (.node l w r) = .node ((L.filter (· < w.1)).foldl ins l) w
      ((L.filter (w.1 < ·)).foldl ins r) := by
  induction L with
  | nil => intros; rfl
  | cons v L ih =>
    intro l w r
    rw [List.foldl_cons, ins, insertNode_node]
    simp only
    rcases lt_trichotomy v w.1 with h | h | h
    · rw [if_neg h.ne, if_pos h, ih]
      simp [h, h.not_gt, ins]
    · rw [if_pos h, ih]
      simp [h]
    · rw [if_neg h.ne', if_neg h.not_gt, ih]
      simp [h, h.not_gt, ins]

theorem planted_cons (v : N) (L : List N) :
    planted (v :: L) = .node (planted (L.filter (· < v))) (v, ()) (planted (L.filter (v < ·))) := by
  show L.foldl ins (.node .nil (v, ()) .nil) = _
  rw [foldl_ins_node]; rfl

theorem planted_snoc (L : List N) (v : N) : planted (L ++ [v]) = ins (planted L) v := by
  simp [planted]

theorem planted_sorted (L : List N) : (planted L).keys.Pairwise (· < ·) := by
  have : ∀ (L : List N) (t : BTree (N × Unit)), t.keys.Pairwise (· < ·) →
      (L.foldl ins t).keys.Pairwise (· < ·) := by
    intro L
    induction L with
    | nil => exact fun t h => h
    | cons v L ih => exact fun t h => ih _ (insertNode_sorted _ _ h)
  exact this L .nil (by simp)

theorem planted_mem (L : List N) (x : N) : x ∈ (planted L).keys ↔ x ∈ L := by
  have : ∀ (L : List N) (t : BTree (N × Unit)), x ∈ (L.foldl ins t).keys ↔ x ∈ t.keys ∨ x ∈ L := by
    intro L
    induction L with
    | nil => simp
    | cons v L ih =>
      intro t
      rw [List.foldl_cons, ih, ins, insertNode_mem, List.mem_cons]
      tauto
  rw [planted, this]; simp

/-- dropping other elements does not change which of two comes first -/
theorem idxOf_filter (P : N → Bool) (x y : N) (hx : P x = true) (hy : P y = true) (L : List N) :
    (L.filter P).idxOf x < (L.filter P).idxOf y ↔ L.idxOf x < L.idxOf y := by
  induction L with
  | nil => simp
  | cons v L ih =>
    by_cases hv : P v = true
    · rw [List.filter_cons_of_pos hv, List.idxOf_cons, List.idxOf_cons, List.idxOf_cons, List.idxOf_cons]
      by_cases h1 : (v == x) = true <;> by_cases h2 : (v == y) = true <;> simp [h1, h2, ih]
    · have h1 : (v == x) = false := by
        simp only [beq_eq_false_iff_ne, ne_eq]; rintro rfl; exact hv hx
      have h2 : (v == y) = false := by
        simp only [beq_eq_false_iff_ne, ne_eq]; rintro rfl; exact hv hy
      rw [List.filter_cons_of_neg hv, ih, List.idxOf_cons, List.idxOf_cons]
      simp [h1, h2]

/-- in `L` every number of the tree comes after the number above it -/
def Downward (t : BTree (N × X)) (L : List N) : Prop :=
  ∀ p b x y, t.keyAt p = some x → t.keyAt (p ++ [b]) = some y → y ∈ L → L.idxOf x < L.idxOf y

theorem Downward.head {l r : BTree (N × X)} {w} {v : N} {L : List N}
    (h : Downward (.node l w r) (v :: L)) (hv : v ∈ (BTree.node l w r).keys) : v = w.1 := by
  obtain ⟨p, hp⟩ := (keyAt_mem _ _).2 hv
  rcases List.eq_nil_or_concat p with rfl | ⟨q, b, rfl⟩
  · simpa using hp.symm
  · have : ∃ x, (BTree.node l w r).keyAt q = some x := by
      clear h
      generalize BTree.node l w r = t at hp
      induction q generalizing t with
      | nil => cases t with
        | nil => simp at hp
        | node l w r => exact ⟨_, rfl⟩
      | cons c q ih =>
        cases t with
        | nil => simp at hp
        | node l w r =>
          cases c with
          | false => exact ih l (by simpa using hp)
          | true => exact ih r (by simpa using hp)
    obtain ⟨x, hx⟩ := this
    have := h q b x v hx (by simpa using hp) (by simp)
    simp [List.idxOf_cons] at this

/-- numbers of a tree, each after the number above it, are put where they are in the tree -/
theorem planted_at : ∀ (t : BTree (N × X)) (L : List N), t.keys.Pairwise (· < ·) →
    (∀ x ∈ L, x ∈ t.keys) → Downward t L →
    ∀ p x, (planted L).keyAt p = some x ↔ t.keyAt p = some x ∧ x ∈ L
  | .nil, L, _, hL, _, p, x => by
    have : L = [] := by
      cases L with
      | nil => rfl
      | cons v L => exact absurd (hL v (by simp)) (by simp)
    subst this
    simp [planted]
  | .node l w r, [], _, _, _, p, x => by simp [planted]
  | .node l w r, v :: L, hs, hL, hd, p, x => by
    obtain ⟨hl, hr, h1, h2⟩ := sorted_node.1 hs
    have hv := hd.head (hL v (by simp))
    subst hv
    rw [planted_cons]
    have key : ∀ y ∈ L, y < w.1 → y ∈ l.keys := fun y hy hlt => by
      have := hL y (by simp [hy])
      simp only [BTree.keys_node, List.mem_append, List.mem_cons] at this
      rcases this with a | a | a
      · exact a
      · exact absurd hlt (by rw [a]; exact lt_irrefl _)
      · exact absurd hlt (h2 _ a).not_gt
    have key' : ∀ y ∈ L, w.1 < y → y ∈ r.keys := fun y hy hlt => by
      have := hL y (by simp [hy])
      simp only [BTree.keys_node, List.mem_append, List.mem_cons] at this
      rcases this with a | a | a
      · exact absurd hlt (h1 _ a).not_gt
      · exact absurd hlt (by rw [a]; exact lt_irrefl _)
      · exact a
    cases p with
    | nil =>
      simp only [keyAt_root, Option.some.injEq]
      exact ⟨fun e => ⟨e, by simp [← e]⟩, fun e => e.1⟩
    | cons b p =>
      cases b with
      | false =>
        simp only [keyAt_left]
        rw [planted_at l (L.filter (· < w.1)) hl (fun y hy => key y (by simp at hy; exact hy.1)
          (by simp at hy; exact hy.2)) ?_ p x]
        · refine and_congr_right fun e => ?_
          have := h1 x (keyAt_keys e)
          simp [this, this.ne]
        · intro q c y z hy hz hm
          have a := h1 y (keyAt_keys hy)
          have b := h1 z (keyAt_keys hz)
          rw [idxOf_filter _ _ _ (by simpa using a) (by simpa using b)]
          have := hd (false :: q) c y z (by simpa using hy) (by simpa using hz)
            (by simp at hm; simp [hm.1])
          simpa [List.idxOf_cons, a.ne', b.ne'] using this
      | true =>
        simp only [keyAt_right]
        rw [planted_at r (L.filter (w.1 < ·)) hr (fun y hy => key' y (by simp at hy; exact hy.1)
          (by simp at hy; exact hy.2)) ?_ p x]
        · refine and_congr_right fun e => ?_
          have := h2 x (keyAt_keys e)
          simp [this, this.ne']
        · intro q c y z hy hz hm
          have a := h2 y (keyAt_keys hy)
          have b := h2 z (keyAt_keys hz)
          rw [idxOf_filter _ _ _ (by simpa using a) (by simpa using b)]
          have := hd (true :: q) c y z (by simpa using hy) (by simpa using hz)
            (by simp at hm; simp [hm.1])
          simpa [List.idxOf_cons, a.ne, b.ne] using this

/-- in the tree built, every number is below one inserted before it -/
theorem planted_downward : ∀ (n : Nat) (L : List N), L.length ≤ n → Downward (planted L) L
  | _, [], _ => by intro p b x y hx; simp [planted] at hx
  | 0, v :: L, h => by simp at h
  | n + 1, v :: L, h => by
    intro p b x y hx hy hm
    rw [planted_cons] at hx hy
    have hlen : ∀ P : N → Bool, (L.filter P).length ≤ n := fun P => by
      have := List.length_filter_le P L
      simp only [List.length_cons] at h; omega
    cases p with
    | nil =>
      simp only [keyAt_root, Option.some.injEq] at hx
      subst hx
      have : y ≠ v := by
        rintro rfl
        cases b with
        | false =>
          have := (planted_mem _ _).1 (keyAt_keys (by simpa using hy))
          simp at this
        | true =>
          have := (planted_mem _ _).1 (keyAt_keys (by simpa using hy))
          simp at this
      simp [this.symm]
    | cons c p =>
      cases c with
      | false =>
        simp only [keyAt_left, List.cons_append] at hx hy
        have a := (planted_mem _ _).1 (keyAt_keys hx)
        have b' := (planted_mem _ _).1 (keyAt_keys hy)
        have := planted_downward n _ (hlen _) p b x y hx hy b'
        simp only [List.mem_filter, decide_eq_true_eq] at a b'
        rw [idxOf_filter _ _ _ (by simpa using a.2) (by simpa using b'.2)] at this
        simpa [List.idxOf_cons, a.2.ne', b'.2.ne'] using this
      | true =>
        simp only [keyAt_right, List.cons_append] at hx hy
        have a := (planted_mem _ _).1 (keyAt_keys hx)
        have b' := (planted_mem _ _).1 (keyAt_keys hy)
        have := planted_downward n _ (hlen _) p b x y hx hy b'
        simp only [List.mem_filter, decide_eq_true_eq] at a b'
        rw [idxOf_filter _ _ _ (by simpa using a.2) (by simpa using b'.2)] at this
        simpa [List.idxOf_cons, a.2.ne, b'.2.ne] using this

/-- exactly which sequences build a tree -/
theorem planted_iff (t : BTree (N × Unit)) (L : List N) : planted L = t ↔
    t.keys.Pairwise (· < ·) ∧ (∀ x, x ∈ L ↔ x ∈ t.keys) ∧ Downward t L := by
  constructor
  · rintro rfl
    exact ⟨planted_sorted L, fun x => (planted_mem L x).symm, planted_downward _ L le_rfl⟩
  · rintro ⟨h1, h2, h3⟩
    refine keyAt_ext _ _ fun p => Option.ext fun x => ?_
    rw [planted_at t L h1 (fun x => (h2 x).1) h3 p x]
    exact ⟨fun e => e.1, fun e => ⟨e, (h2 x).2 (keyAt_keys e)⟩⟩

/-! ## The constructor -/

theorem ins_size (t : BTree (N × Unit)) (v : N) :
    ((ins t v).size : Int) = if (t.insertNode (v, ())).2 then (t.size : Int) + 1 else t.size := by
  have := insertNode_length (v, ()) t
  rw [BTree.keys_length_size, BTree.keys_length_size] at this
  rw [ins, this]
  split_ifs <;> simp

theorem insertNum_ins (t : BTree (N × Unit)) (v : N) :
    ((⟨t, t.size⟩ : Bst N Unit).insertNum v ()).1 = ⟨ins t v, (ins t v).size⟩ := by
  have := ins_size t v
  cases t with
  | nil => rfl
  | node l w r => rw [this]; rfl

theorem fromLoop_ins (L : List N) : ∀ t : BTree (N × Unit),
    bstFromLoop (L.map .num) ⟨t, t.size⟩ = .ok ⟨L.foldl ins t, (L.foldl ins t).size⟩ := by
  induction L with
  | nil => intro t; rfl
  | cons v L ih =>
    intro t
    show bstFromLoop (L.map .num) ((⟨t, t.size⟩ : Bst N Unit).insertNum v ()).1 = _
    rw [insertNum_ins, ih]; rfl

theorem bstFrom_planted (L : List N) :
    bstFrom (L.map .num) = .ok ⟨planted L, (planted L).size⟩ := fromLoop_ins L .nil

/-! ## Orders of visiting -/

/-- when nodes are visited after the nodes above them, so are the numbers -/
theorem visits_downward {before : List Bool → List Bool → Bool} (t : BTree (N × X))
    (hs : t.keys.Pairwise (· < ·)) (hb : ∀ p b, before (p ++ [b]) p = false) {vs : List (N × X)}
    (hv : Visits before t.at vs) : Downward t (vs.map Prod.fst) ∧
      ∀ x, x ∈ vs.map Prod.fst ↔ x ∈ t.keys := by
  obtain ⟨ps, hp, hm, he⟩ := hv
  have hk : (vs.map Prod.fst).map some = ps.map t.keyAt := by
    have := congrArg (List.map (Option.map Prod.fst)) he
    have e : t.keyAt = fun x => Option.map Prod.fst (t.at x) := rfl
    rw [e]
    simpa [List.map_map, Function.comp_def] using this
  generalize vs.map Prod.fst = ks at hk
  have hmem : ∀ x, x ∈ ks ↔ x ∈ t.keys := by
    intro x
    rw [← keyAt_mem]
    constructor
    · intro h
      have : some x ∈ ps.map t.keyAt := hk ▸ List.mem_map_of_mem h
      obtain ⟨p, _, e⟩ := List.mem_map.1 this
      exact ⟨p, e⟩
    · rintro ⟨p, e⟩
      have hp : p ∈ ps := (hm p).2 (by
        rw [BTree.keyAt, Option.map_eq_some_iff] at e
        obtain ⟨a, e, _⟩ := e
        simp [e])
      have : some x ∈ ks.map some := hk ▸ e ▸ List.mem_map_of_mem hp
      simpa using this
  refine ⟨fun p b x y hx hy _ => ?_, hmem⟩
  have hxk := (hmem x).2 (keyAt_keys hx)
  have hyk := (hmem y).2 (keyAt_keys hy)
  have i1 := List.idxOf_lt_length_of_mem hxk
  have i2 := List.idxOf_lt_length_of_mem hyk
  have hlen : ks.length = ps.length := by simpa using congrArg List.length hk
  have at1 : ∀ z (hz : z ∈ ks), t.keyAt (ps[ks.idxOf z]'(hlen ▸ List.idxOf_lt_length_of_mem hz)) = some z := by
    intro z hz
    have hlt := List.idxOf_lt_length_of_mem hz
    have e1 : (ks.map some)[ks.idxOf z]'(by simpa using hlt) = some z := by simp
    have e2 : (ps.map t.keyAt)[ks.idxOf z]'(by simp; omega) = some z := by
      rw [← e1]; congr 1; exact hk.symm
    simpa using e2
  have p1 := keyAt_inj t hs _ _ _ (at1 x hxk) hx
  have p2 := keyAt_inj t hs _ _ _ (at1 y hyk) hy
  by_contra hlt
  rcases Nat.lt_or_ge (ks.idxOf y) (ks.idxOf x) with h | h
  · have := List.pairwise_iff_getElem.1 hp _ _ (hlen ▸ i2) (hlen ▸ i1) h
    rw [p1, p2, hb] at this
    exact absurd this (by simp)
  · have h3 : ks.idxOf x = ks.idxOf y := by omega
    have h4 := p1
    simp only [h3] at h4
    rw [p2] at h4
    exact absurd (congrArg List.length h4) (by simp)

theorem preLt_up : ∀ (p : List Bool) (b : Bool), preLt (p ++ [b]) p = false
  | [], _ => rfl
  | a :: p, b => by simp [preLt, preLt_up p b]

theorem breadthLt_up (p : List Bool) (b : Bool) : breadthLt (p ++ [b]) p = false := by
  simp [breadthLt]

/-! ## `AVL` -/

/-- the tree with the true heights -/
def withHeights : BTree (N × X) → BTree (N × Nat)
  | .nil => .nil
  | .node l w r => avlNode (withHeights l) w.1 (withHeights r)

theorem withHeights_hl : ∀ t : BTree (N × X), (withHeights t).hl = t.nlev
  | .nil => rfl
  | .node l w r => by
    simp only [withHeights, avlNode, hl_node, withHeights_hl l, withHeights_hl r, BTree.nlev]; omega

theorem withHeights_keyAt : ∀ (t : BTree (N × X)) (p), (withHeights t).keyAt p = t.keyAt p
  | .nil, p => by simp [withHeights]
  | .node l w r, [] => rfl
  | .node l w r, false :: p => withHeights_keyAt l p
  | .node l w r, true :: p => withHeights_keyAt r p

/-- two trees with the same numbers in the same places and true heights -/
theorem withHeights_eq : ∀ (s : BTree (N × X)) (t : BTree (N × Nat)), hOk t →
    (∀ p, s.keyAt p = t.keyAt p) → withHeights s = t
  | .nil, .nil, _, _ => rfl
  | .nil, .node l w r, _, h => by simpa using h []
  | .node l w r, .nil, _, h => by simpa using h []
  | .node l w r, .node l' w' r', k, h => by
    have h0 := h []
    simp only [keyAt_root, Option.some.injEq] at h0
    have hk := k.2.2
    rw [withHeights, withHeights_eq l l' k.1 (fun p => h (false :: p)),
      withHeights_eq r r' k.2.1 (fun p => h (true :: p)), avlNode, h0, ← hk]

theorem balanced_node {l r : BTree (N × X)} {w} (h : Balanced (.node l w r)) :
    Balanced l ∧ Balanced r ∧ l.nlev ≤ r.nlev + 1 ∧ r.nlev ≤ l.nlev + 1 :=
  ⟨fun p => h (false :: p), fun p => h (true :: p), h [] l w r rfl⟩

/-- an insert that leaves the tree balanced rotates nothing -/
theorem avlInsert_plain (v : N) : ∀ s : BTree (N × Unit), Balanced (ins s v) →
    (withHeights s).avlInsert v = .ok (withHeights (ins s v), false, (s.insertNode (v, ())).2)
  | .nil, _ => rfl
  | .node l w r, hb => by
    rw [ins, insertNode_node] at *
    simp only at *
    rw [withHeights, avlNode, BTree.avlInsert]
    simp only
    by_cases h1 : v = w.1
    · simp only [h1, if_true]; rfl
    · by_cases h2 : v < w.1
      · simp only [h1, h2, if_true, if_false] at hb ⊢
        obtain ⟨b1, b2, b3, b4⟩ := balanced_node hb
        rw [avlInsert_plain v l b1]
        show (do
          let (t, rot') ← avlLink true (withHeights (ins l v)) false w.1 (withHeights r)
          pure (t, rot', (l.insertNode (v, ())).2)) = _
        have : avlLink true (withHeights (ins l v)) false w.1 (withHeights r)
            = .ok (avlNode (withHeights (ins l v)) w.1 (withHeights r), false) := by
          rw [avlLink, if_neg (by simp), if_pos rfl,
            up_balanced _ (by rw [withHeights_hl, withHeights_hl]; exact b3)
              (by rw [withHeights_hl, withHeights_hl]; exact b4)]
        rw [this]; rfl
      · simp only [h1, h2, if_false] at hb ⊢
        obtain ⟨b1, b2, b3, b4⟩ := balanced_node hb
        rw [avlInsert_plain v r b2]
        show (do
          let (t, rot') ← avlLink false (withHeights (ins r v)) false w.1 (withHeights l)
          pure (t, rot', (r.insertNode (v, ())).2)) = _
        have : avlLink false (withHeights (ins r v)) false w.1 (withHeights l)
            = .ok (avlNode (withHeights l) w.1 (withHeights (ins r v)), false) := by
          rw [avlLink, if_neg (by simp), if_neg (by simp),
            up_balanced _ (by rw [withHeights_hl, withHeights_hl]; exact b3)
              (by rw [withHeights_hl, withHeights_hl]; exact b4)]
        rw [this]; rfl

theorem avlInsertNum_plain (v : N) (s : BTree (N × Unit)) (hb : Balanced (ins s v)) :
    avlInsertNum ⟨withHeights s, s.size⟩ v =
      .ok (⟨withHeights (ins s v), (ins s v).size⟩, !(s.insertNode (v, ())).2) := by
  have hz := ins_size s v
  cases s with
  | nil => rfl
  | node l w r =>
    have := avlInsert_plain v (.node l w r) hb
    rw [withHeights, avlNode] at this ⊢
    rw [avlInsertNum]
    simp only
    rw [this, hz]
    rfl

/-- inserts that leave every tree on the way balanced -/
theorem avlExecs_plain (L : List N) : ∀ (K : List N),
    (∀ a b, L = a ++ b → Balanced (planted (K ++ a))) → (K ++ L).Nodup →
    avlExecs (L.map (fun v => .insert (.num v))) ⟨withHeights (planted K), (planted K).size⟩ =
      .ok (L.map (fun _ => .ok (.unit, false)),
        ⟨withHeights (planted (K ++ L)), (planted (K ++ L)).size⟩) := by
  induction L with
  | nil => intro K _ _; simp [avlExecs]
  | cons v L ih =>
    intro K h hn
    have hb : Balanced (ins (planted K) v) := by
      rw [← planted_snoc]; exact h [v] L rfl
    have hnew : ((planted K).insertNode (v, ())).2 = true := by
      rw [insertNode_flag _ _ (planted_sorted K), planted_mem]
      intro hv
      have := (List.nodup_append.1 hn).2.2 v hv v (by simp)
      exact this rfl
    have step : avlExec ⟨withHeights (planted K), (planted K).size⟩ (.insert (.num v)) =
        .ok (.ok (.unit, false), ⟨withHeights (planted (K ++ [v])), (planted (K ++ [v])).size⟩) := by
      show (do
        let (t', w) ← avlInsertNum ⟨withHeights (planted K), (planted K).size⟩ v
        pure (Except.ok (BstVal.unit, w), t')) = _
      rw [avlInsertNum_plain v _ hb, hnew, planted_snoc]; rfl
    have := ih (K ++ [v]) (fun a b e => by
      have := h (v :: a) b (by rw [e]; rfl)
      simpa using this) (by simpa using hn)
    rw [List.map_cons, avlExecs, step]
    show (do
      let (rs, t'') ← avlExecs (L.map (fun v => .insert (.num v)))
        ⟨withHeights (planted (K ++ [v])), (planted (K ++ [v])).size⟩
      pure (Except.ok (BstVal.unit, false) :: rs, t'')) = _
    rw [this]
    simp [pure, Except.pure, bind, Except.bind]

/-! ## Level by level -/

theorem exists_deep : ∀ (t : BTree (N × X)) (n : Nat), n < t.nlev →
    ∃ p x, p.length = n ∧ t.keyAt p = some x
  | .nil, n, h => by simp [BTree.nlev] at h
  | .node l w r, 0, _ => ⟨[], w.1, rfl, rfl⟩
  | .node l w r, n + 1, h => by
    rw [BTree.nlev] at h
    rcases Nat.lt_or_ge n l.nlev with k | k
    · obtain ⟨p, x, a, b⟩ := exists_deep l n k
      exact ⟨false :: p, x, by simp [a], b⟩
    · obtain ⟨p, x, a, b⟩ := exists_deep r n (by omega)
      exact ⟨true :: p, x, by simp [a], b⟩

theorem deep_lt {t : BTree (N × X)} {p x} (h : t.keyAt p = some x) : p.length < t.nlev := by
  refine t.at_length_lt p ?_
  rw [BTree.keyAt, Option.map_eq_some_iff] at h
  obtain ⟨a, e, _⟩ := h
  simp [e]

theorem keyAt_sub : ∀ (t : BTree (N × X)) (p q), t.keyAt (p ++ q) = (t.sub p).keyAt q
  | t, [], q => by simp [BTree.sub]
  | .nil, _ :: p, q => by simp [BTree.sub]
  | .node l w r, false :: p, q => by simpa [BTree.sub] using keyAt_sub l p q
  | .node l w r, true :: p, q => by simpa [BTree.sub] using keyAt_sub r p q

/-- the first nodes of a balanced tree, level by level, are a balanced tree -/
theorem balanced_top {s : BTree (N × Unit)} {t : BTree (N × X)} (hb : Balanced t)
    (hs : ∀ p x, s.keyAt p = some x → t.keyAt p = some x)
    (hc : ∀ p x q y, s.keyAt p = some x → t.keyAt q = some y → q.length < p.length →
      s.keyAt q = some y) : Balanced s := by
  intro p l w r e
  have hsub : ∀ q, s.keyAt (p ++ q) = (BTree.node l w r).keyAt q := fun q => by rw [keyAt_sub, e]
  have ht : t.keyAt p = some w.1 := hs p w.1 (by simpa using hsub [])
  obtain ⟨l', w', r', e'⟩ : ∃ l' w' r', t.sub p = .node l' w' r' := by
    have := keyAt_sub t p []
    rw [List.append_nil, ht] at this
    cases hh : t.sub p with
    | nil => simp [hh] at this
    | node a b c => exact ⟨a, b, c, rfl⟩
  have tsub : ∀ q, t.keyAt (p ++ q) = (BTree.node l' w' r').keyAt q := fun q => by rw [keyAt_sub, e']
  obtain ⟨b1, b2⟩ := hb p l' w' r' e'
  constructor
  · by_contra hlt
    obtain ⟨q, x, hq, hx⟩ := exists_deep l (l.nlev - 1) (by omega)
    have hx' : s.keyAt (p ++ false :: q) = some x := by rw [hsub]; exact hx
    have := deep_lt (t := l') (by simpa [tsub] using hs _ _ hx' : l'.keyAt q = some x)
    obtain ⟨q', y, hq', hy⟩ := exists_deep r' r.nlev (by omega)
    have := hc _ x (p ++ true :: q') y hx' (by rw [tsub]; exact hy) (by simp; omega)
    rw [hsub] at this
    exact absurd (deep_lt (t := r) this) (by omega)
  · by_contra hlt
    obtain ⟨q, x, hq, hx⟩ := exists_deep r (r.nlev - 1) (by omega)
    have hx' : s.keyAt (p ++ true :: q) = some x := by rw [hsub]; exact hx
    have := deep_lt (t := r') (by simpa [tsub] using hs _ _ hx' : r'.keyAt q = some x)
    obtain ⟨q', y, hq', hy⟩ := exists_deep l' l.nlev (by omega)
    have := hc _ x (p ++ false :: q') y hx' (by rw [tsub]; exact hy) (by simp; omega)
    rw [hsub] at this
    exact absurd (deep_lt (t := l) this) (by omega)


/-- what `Visits` says of level order, in terms of numbers -/
theorem breadth_prefix (t : BTree (N × X)) (hs : t.keys.Pairwise (· < ·)) {vs : List (N × X)}
    (hv : Visits breadthLt t.at vs) {a b : List N} (e : vs.map Prod.fst = a ++ b) {p q x y}
    (hx : t.keyAt p = some x) (hy : t.keyAt q = some y) (hxa : x ∈ a) (hl : q.length < p.length) :
    y ∈ a := by
  obtain ⟨ps, hp, hm, he⟩ := hv
  have hk : (a ++ b).map some = ps.map t.keyAt := by
    have h := congrArg (List.map (Option.map Prod.fst)) he
    have e' : t.keyAt = fun x => Option.map Prod.fst (t.at x) := rfl
    rw [e', ← e]
    simpa [List.map_map, Function.comp_def] using h
  rw [List.map_append] at hk
  obtain ⟨pa, pb, rfl, ha, hb⟩ := List.append_eq_map_iff.1 hk
  obtain ⟨p', hp', ep⟩ : ∃ p', p' ∈ pa ∧ t.keyAt p' = some x := by
    have : some x ∈ pa.map t.keyAt := ha ▸ List.mem_map_of_mem hxa
    simpa using this
  have hpp := keyAt_inj t hs _ _ _ ep hx
  subst hpp
  have hq : q ∈ pa ++ pb := (hm q).2 (by
    rw [BTree.keyAt, Option.map_eq_some_iff] at hy
    obtain ⟨c, e, _⟩ := hy
    simp [e])
  rcases List.mem_append.1 hq with h | h
  · have : some y ∈ a.map some := ha ▸ hy ▸ List.mem_map_of_mem h
    simpa using this
  · have := (List.pairwise_append.1 hp).2.2 p' hp' q h
    simp only [breadthLt, Bool.or_eq_true, decide_eq_true_eq, Bool.and_eq_true] at this
    omega

theorem visits_nodup {before : List Bool → List Bool → Bool} (t : BTree (N × X))
    (hs : t.keys.Pairwise (· < ·)) (hb : ∀ p, before p p = false) {vs : List (N × X)}
    (hv : Visits before t.at vs) : (vs.map Prod.fst).Nodup := by
  obtain ⟨ps, hp, hm, he⟩ := hv
  have hk : (vs.map Prod.fst).map some = ps.map t.keyAt := by
    have h := congrArg (List.map (Option.map Prod.fst)) he
    have e' : t.keyAt = fun x => Option.map Prod.fst (t.at x) := rfl
    rw [e']
    simpa [List.map_map, Function.comp_def] using h
  refine List.Nodup.of_map some ?_
  rw [hk]
  have hpn : ps.Nodup := hp.imp (fun {a b} h => by rintro rfl; rw [hb] at h; exact absurd h (by simp))
  refine hpn.map_on ?_
  intro p h1 q h2 e
  obtain ⟨x, hx⟩ : ∃ x, t.keyAt p = some x := by
    have := (hm p).1 h1
    rw [Option.isSome_iff_exists] at this
    obtain ⟨c, e⟩ := this
    exact ⟨c.1, by simp [BTree.keyAt, e]⟩
  exact keyAt_inj t hs p q x hx (e ▸ hx)

/-- increasing numbers make a chain -/
theorem planted_increasing (L : List N) (h : L.Pairwise (· < ·)) : (planted L).nlev = L.length := by
  induction L with
  | nil => rfl
  | cons v L ih =>
    obtain ⟨h1, h2⟩ := List.pairwise_cons.1 h
    have e1 : L.filter (· < v) = [] :=
      List.filter_eq_nil_iff.2 fun x hx => by simpa using (h1 x hx).le
    have e2 : L.filter (v < ·) = L := List.filter_eq_self.2 fun x hx => by simpa using h1 x hx
    rw [planted_cons, e1, e2, BTree.nlev, ih h2]
    simp [planted, BTree.nlev]

end Extra
