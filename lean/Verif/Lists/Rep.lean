import Verif.Lists.Run

/-!
# Representation of an abstract list by heap nodes

`Rep k h l ns xs`: in heap `h` the list object `l` of class `k` owns exactly the nodes `ns`
(in order) and these hold the values `xs`.
-/

namespace Extra
variable {V X : Type}

/-- the nodes `ns` are chained by `_next`; the last one points to `e` -/
def Lnk (h : Heap V X) : List Addr → Option Addr → Prop
  | [], _ => True
  | a :: as, e => (h.node a).next = as.head?.or e ∧ Lnk h as e

/-- the nodes `ns` are chained backwards by `_prev`; the first one points to `p` -/
def PLnk (h : Heap V X) : Option Addr → List Addr → Prop
  | _, [] => True
  | p, a :: as => (h.node a).prev = p ∧ PLnk h (some a) as

/-- where the last node's `_next` points -/
def endOf (k : Kind) (ns : List Addr) : Option Addr :=
  match k with
  | .cll => ns.head?
  | _ => none

structure Rep [PyData V] (k : Kind) (h : Heap V X) (l : Addr) (ns : List Addr) (xs : List V) :
    Prop where
  len : (h.lobj l).length = ns.length
  data : ns.map (fun a => (h.node a).data) = xs.map some
  normed : ∀ x ∈ xs, PyData.norm x = x
  nodup : ns.Nodup
  bound : ∀ a ∈ ns, a < h.nNodes
  lbound : l < h.nLists
  head : ns ≠ [] → (h.lobj l).head = ns.head?
  hbound : ∀ a, (h.lobj l).head = some a → a < h.nNodes
  links : Lnk h ns (endOf k ns)
  plinks : k = .dll → PLnk h none ns
  tail : k = .dll → ns ≠ [] → (h.lobj l).tail = ns.getLast?

/-- `h'` differs from `h` only on the nodes in `S`, the lists in `L`, and new objects. -/
structure Frame (h h' : Heap V X) (S L : Addr → Prop) : Prop where
  node : ∀ a, a < h.nNodes → ¬ S a → h'.node a = h.node a
  lobj : ∀ l, l < h.nLists → ¬ L l → h'.lobj l = h.lobj l
  nNodes : h.nNodes ≤ h'.nNodes
  nLists : h.nLists ≤ h'.nLists

theorem Frame.refl (h : Heap V X) (S L : Addr → Prop) : Frame h h S L :=
  ⟨fun _ _ _ => rfl, fun _ _ _ => rfl, Nat.le_refl _, Nat.le_refl _⟩

theorem Frame.trans {h h' h'' : Heap V X} {S S' L L' : Addr → Prop} (f : Frame h h' S L)
    (g : Frame h' h'' S' L') (hS : ∀ a, a < h.nNodes → S' a → S a)
    (hL : ∀ l, l < h.nLists → L' l → L l) : Frame h h'' S L :=
  ⟨fun a ha hs => (g.node a (Nat.lt_of_lt_of_le ha f.nNodes) (fun e => hs (hS a ha e))).trans
      (f.node a ha hs),
    fun l hl hs => (g.lobj l (Nat.lt_of_lt_of_le hl f.nLists) (fun e => hs (hL l hl e))).trans
      (f.lobj l hl hs),
    Nat.le_trans f.nNodes g.nNodes, Nat.le_trans f.nLists g.nLists⟩

theorem Frame.mono {h h' : Heap V X} {S S' L L' : Addr → Prop} (f : Frame h h' S L)
    (hS : ∀ a, a < h.nNodes → S a → S' a) (hL : ∀ l, l < h.nLists → L l → L' l) :
    Frame h h' S' L' :=
  ⟨fun a ha hs => f.node a ha (fun e => hs (hS a ha e)),
    fun l hl hs => f.lobj l hl (fun e => hs (hL l hl e)), f.nNodes, f.nLists⟩

theorem Lnk.congr {h h' : Heap V X} : ∀ {ns : List Addr} {e : Option Addr},
    (∀ a ∈ ns, (h'.node a).next = (h.node a).next) → Lnk h ns e → Lnk h' ns e
  | [], _, _, _ => trivial
  | a :: as, e, hc, hl =>
    ⟨(hc a List.mem_cons_self).trans hl.1,
      Lnk.congr (fun b hb => hc b (List.mem_cons_of_mem _ hb)) hl.2⟩

theorem PLnk.congr {h h' : Heap V X} : ∀ {ns : List Addr} {p : Option Addr},
    (∀ a ∈ ns, (h'.node a).prev = (h.node a).prev) → PLnk h p ns → PLnk h' p ns
  | [], _, _, _ => trivial
  | a :: as, e, hc, hl =>
    ⟨(hc a List.mem_cons_self).trans hl.1,
      PLnk.congr (fun b hb => hc b (List.mem_cons_of_mem _ hb)) hl.2⟩

theorem Lnk_append {h : Heap V X} : ∀ {as bs : List Addr} {e : Option Addr},
    Lnk h (as ++ bs) e ↔ Lnk h as (bs.head?.or e) ∧ Lnk h bs e
  | [], bs, e => by simp [Lnk]
  | a :: as, bs, e => by
    have ih := Lnk_append (h := h) (as := as) (bs := bs) (e := e)
    cases as with
    | nil => simp [Lnk]
    | cons b bs' =>
      simp only [List.cons_append, Lnk] at ih ⊢
      simp only [List.head?_cons, Option.some_or] at ih ⊢
      rw [ih]; simp only [and_assoc]

theorem PLnk_append {h : Heap V X} : ∀ {as bs : List Addr} {p : Option Addr},
    PLnk h p (as ++ bs) ↔ PLnk h p as ∧ PLnk h (as.getLast?.or p) bs
  | [], bs, e => by simp [PLnk]
  | a :: as, bs, p => by
    have ih := PLnk_append (h := h) (as := as) (bs := bs) (p := some a)
    simp only [List.cons_append, PLnk, ih, and_assoc]
    cases as with
    | nil => simp
    | cons b bs' =>
      have : ((b :: bs').getLast?.or (some a)) = ((a :: b :: bs').getLast?.or p) := by
        simp [List.getLast?_cons_cons, List.getLast?_cons]
      rw [this]

variable [PyData V]

theorem Rep.frame {k : Kind} {h h' : Heap V X} {l : Addr} {ns : List Addr} {xs : List V}
    {S L : Addr → Prop} (r : Rep k h l ns xs) (f : Frame h h' S L)
    (hS : ∀ a ∈ ns, ¬ S a) (hL : ¬ L l) : Rep k h' l ns xs := by
  have hn : ∀ a ∈ ns, h'.node a = h.node a := fun a ha => f.node a (r.bound a ha) (hS a ha)
  have hl : h'.lobj l = h.lobj l := f.lobj l r.lbound hL
  refine ⟨by rw [hl]; exact r.len, ?_, r.normed, r.nodup,
    fun a ha => Nat.lt_of_lt_of_le (r.bound a ha) f.nNodes,
    Nat.lt_of_lt_of_le r.lbound f.nLists, by rw [hl]; exact r.head, ?_,
    r.links.congr (fun a ha => by rw [hn a ha]),
    fun hk => (r.plinks hk).congr (fun a ha => by rw [hn a ha]), by rw [hl]; exact r.tail⟩
  · rw [← r.data]; exact List.map_congr_left (fun a ha => by rw [hn a ha])
  · rw [hl]; exact fun a ha => Nat.lt_of_lt_of_le (r.hbound a ha) f.nNodes

theorem Rep.length_eq {k : Kind} {h : Heap V X} {l : Addr} {ns : List Addr} {xs : List V}
    (r : Rep k h l ns xs) : ns.length = xs.length := by
  have := congrArg List.length r.data; simpa using this

end Extra
