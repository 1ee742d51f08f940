import Verif.Lists.Rep

/-! # Contracts of the internal methods `_get_node`, `_insert_node`, `_remove_node` -/

set_option linter.unusedSectionVars false
set_option linter.unusedSimpArgs false
attribute [local irreducible] Extra.upd

namespace Extra
variable {V X : Type}

theorem getNodeLoop_spec {h : Heap V X} : ∀ {as bs : List Addr} {e p c : Option Addr},
    Lnk h (as ++ bs) e → (as ≠ [] → c = as.head?) →
    getNodeLoop as.length p c h =
      (.ok (as.getLast?.or p, if as = [] then c else bs.head?.or e), h)
  | [], bs, e, p, c, _, _ => by simp [getNodeLoop]
  | a :: as, bs, e, p, c, hl, hc => by
    have hc' := hc (by simp)
    subst hc'
    rw [List.cons_append, Lnk] at hl
    obtain ⟨h1, h2⟩ := hl
    have ih := getNodeLoop_spec (as := as) (bs := bs) (e := e) (p := some a)
      (c := (as ++ bs).head?.or e) h2 (by intro hne; cases as <;> simp_all)
    simp only [List.length_cons, getNodeLoop, List.head?_cons, run_bind, run_getNext, h1, ih]
    cases as <;> simp [List.getLast?_cons]

theorem backLoop_spec {h : Heap V X} (as : List Addr) : ∀ (n : Nat) {bs : List Addr}
    {p : Option Addr}, bs.length = n → PLnk h p (as ++ bs) →
    backLoop n ((as ++ bs).getLast?.or p) h = (.ok (as.getLast?.or p), h)
  | 0, bs, p, hn, _ => by
    have : bs = [] := List.eq_nil_of_length_eq_zero hn
    simp [backLoop, this]
  | n + 1, bs, p, hn, hl => by
    have hne : bs ≠ [] := by rintro rfl; simp at hn
    obtain ⟨bs', b, rfl⟩ : ∃ bs' b, bs = bs' ++ [b] :=
      ⟨_, _, (List.dropLast_concat_getLast hne).symm⟩
    rw [← List.append_assoc] at hl ⊢
    obtain ⟨h1, h2, _⟩ := PLnk_append.1 hl
    have ih := backLoop_spec as n (bs := bs') (p := p) (by simpa using hn) h1
    simp only [List.getLast?_append, List.getLast?_singleton, Option.some_or, backLoop, run_bind,
      run_getPrev, h2]
    simpa using ih

variable [PyData V] [Inhabited X]

theorem getNode_spec {k : Kind} {h : Heap V X} {l : Addr} {as bs : List Addr} {xs : List V}
    (r : Rep k h l (as ++ bs) xs) :
    ∃ c, getNode k l as.length h = (.ok (as.getLast?, c), h) ∧
      (as ++ bs ≠ [] → c = bs.head?.or (endOf k (as ++ bs))) := by
  have fwd : ∃ c, getNodeLoop as.length none (h.lobj l).head h = (.ok (as.getLast?, c), h) ∧
      (as ++ bs ≠ [] → c = bs.head?.or (endOf k (as ++ bs))) := by
    have := getNodeLoop_spec (p := none) (c := (h.lobj l).head) r.links
      (by intro hne; rw [r.head (by simp [hne])]; cases as <;> simp_all)
    refine ⟨_, by rw [this]; simp; rfl, ?_⟩
    intro hne
    by_cases ha : as = []
    · subst ha
      simp only [List.nil_append] at hne
      have := r.head (by simpa using hne)
      cases bs <;> simp_all
    · simp [ha]
  cases k with
  | ll => simpa [getNode, run_bind] using fwd
  | cll => simpa [getNode, run_bind] using fwd
  | dll =>
    simp only [getNode, run_bind, run_getList]
    by_cases hi : as.length ≤ (h.lobj l).length / 2
    · simpa [hi] using fwd
    · have hlen := r.len
      have hne : as ≠ [] := by rintro rfl; simp at hi
      have hb := backLoop_spec as (bs.length) (bs := bs) (p := none) rfl (r.plinks rfl)
      have hd : (h.lobj l).length - as.length = bs.length := by rw [hlen]; simp
      obtain ⟨as', a, rfl⟩ : ∃ as' a, as = as' ++ [a] :=
        ⟨_, _, (List.dropLast_concat_getLast hne).symm⟩
      have hl := r.links
      rw [List.append_assoc, Lnk_append] at hl
      have hnx := hl.2.1
      simp only [Option.or_none] at hb
      rw [← r.tail rfl (by simp)] at hb
      simp only [hi, if_false, run_bind, hd, hb]
      simp only [List.getLast?_append, List.getLast?_singleton, Option.some_or, run_getNext,
        run_pure]
      exact ⟨_, rfl, fun _ => by rw [hnx]; simp [endOf]⟩

/-- data and subclass fields of the nodes are untouched -/
def Same (h h' : Heap V X) : Prop :=
  ∀ a, (h'.node a).data = (h.node a).data ∧ (h'.node a).ext = (h.node a).ext

theorem data_insert {d d' : Addr → Option V} {as bs : List Addr} {ys zs : List V} {n : Addr} {v : V}
    (hlen : as.length = ys.length) (h : (as ++ bs).map d = (ys ++ zs).map some)
    (hd : ∀ a ∈ as ++ bs, d' a = d a) (hn : d' n = some v) :
    (as ++ n :: bs).map d' = (ys ++ v :: zs).map some := by
  simp only [List.map_append] at h
  obtain ⟨h1, h2⟩ := List.append_inj h (by simpa using hlen)
  simp only [List.map_append, List.map_cons, hn]
  rw [← h1, ← h2]
  congr 1
  · exact List.map_congr_left (fun a ha => hd a (by simp [ha]))
  · congr 1
    exact List.map_congr_left (fun a ha => hd a (by simp [ha]))

/-- everything in `Rep` except the pointers, after inserting `n` between `as` and `bs` -/
theorem Rep.insert_core {k : Kind} {h h' : Heap V X} {l : Addr} {as bs : List Addr}
    {ys zs : List V} {n : Addr} {v : V}
    (r : Rep k h l (as ++ bs) (ys ++ zs)) (hlen : as.length = ys.length)
    (hn : n ∉ as ++ bs) (hnb : n < h.nNodes) (hd : (h.node n).data = some v)
    (hv : PyData.norm v = v) (hs : Same h h') (e1 : h'.nNodes = h.nNodes)
    (e2 : h'.nLists = h.nLists) (hl : (h'.lobj l).length = (h.lobj l).length + 1)
    (hh : (h'.lobj l).head = (as ++ n :: bs).head?)
    (hlnk : Lnk h' (as ++ n :: bs) (endOf k (as ++ n :: bs)))
    (hp : k = .dll → PLnk h' none (as ++ n :: bs))
    (ht : k = .dll → (h'.lobj l).tail = (as ++ n :: bs).getLast?) :
    Rep k h' l (as ++ n :: bs) (ys ++ v :: zs) := by
  have hb : ∀ a ∈ as ++ n :: bs, a < h'.nNodes := by
    intro a ha
    rw [e1]
    simp only [List.mem_append, List.mem_cons] at ha
    rcases ha with ha | rfl | ha
    · exact r.bound a (by simp [ha])
    · exact hnb
    · exact r.bound a (by simp [ha])
  refine ⟨by rw [hl, r.len]; simp; omega,
    data_insert hlen r.data (fun a _ => (hs a).1) ((hs n).1.trans hd), ?_, ?_, hb,
    by rw [e2]; exact r.lbound, fun _ => hh, ?_, hlnk, hp, fun hk _ => ht hk⟩
  · intro x hx
    simp only [List.mem_append, List.mem_cons] at hx
    rcases hx with hx | rfl | hx
    · exact r.normed x (by simp [hx])
    · exact hv
    · exact r.normed x (by simp [hx])
  · have := r.nodup
    rw [List.perm_middle.nodup_iff, List.nodup_cons]
    exact ⟨hn, this⟩
  · intro a ha
    rw [hh] at ha
    exact hb a (List.mem_of_mem_head? ha)

theorem upd_upd {β : Type} (f : Addr → β) (a : Addr) (b c : β) :
    upd (upd f a b) a c = upd f a c := by
  funext x; by_cases hx : x = a <;> simp [upd, hx]

/-- the outcome of inserting a node: shared shape of the three contracts -/
def Inserted (k : Kind) (h h' : Heap V X) (l : Addr) (as bs : List Addr) (ys zs : List V)
    (n : Addr) (v : V) : Prop :=
  Rep k h' l (as ++ n :: bs) (ys ++ v :: zs) ∧
  Frame h h' (fun a => a ∈ as ++ bs ∨ a = n) (· = l) ∧ Same h h' ∧ h'.nNodes = h.nNodes ∧
  h'.nLists = h.nLists

theorem insertNodeLL_spec {h : Heap V X} {l : Addr} {as bs : List Addr}
    {ys zs : List V} {n : Addr} {v : V} {prev : Option Addr}
    (r : Rep .ll h l (as ++ bs) (ys ++ zs)) (hlen : as.length = ys.length)
    (hn : n ∉ as ++ bs) (hnb : n < h.nNodes) (hd : (h.node n).data = some v)
    (hv : PyData.norm v = v) (hp : prev = as.getLast? ∨ as ++ bs = []) :
    ∃ h', insertNodeLL l prev n h = (.ok n, h') ∧ Inserted .ll h h' l as bs ys zs n v := by
  have hl := r.len
  by_cases h0 : as ++ bs = []
  · obtain ⟨rfl, rfl⟩ := List.append_eq_nil_iff.1 h0
    simp only [List.append_nil, List.length_nil] at hl
    obtain ⟨h', he, hN, hL, e1, e2⟩ : ∃ h', insertNodeLL l prev n h = (.ok n, h') ∧
        h'.node = upd h.node n { h.node n with next := none } ∧
        h'.lobj = upd h.lobj l ⟨some n, (h.lobj l).tail, 1⟩ ∧
        h'.nNodes = h.nNodes ∧ h'.nLists = h.nLists :=
      ⟨⟨_, _, _, _⟩, by simp [insertNodeLL, run_bind, hl, setNext, Heap.setNode, Heap.setList, upd_upd],
        rfl, rfl, rfl, rfl⟩
    have hs : Same h h' := by
      intro a; rw [hN]; by_cases ha : a = n <;> simp [upd, ha]
    refine ⟨h', he, r.insert_core hlen hn hnb hd hv hs e1 e2 (by simp [hL, hl]) (by simp [hL])
      (by simp [Lnk, endOf, hN]) (by simp) (by simp),
      ⟨fun a _ ha => ?_, fun a _ ha => ?_, Nat.le_of_eq e1.symm, Nat.le_of_eq e2.symm⟩, hs, e1, e2⟩
    · simp only [not_or] at ha; rw [hN, upd_ne _ _ ha.2]
    · rw [hL, upd_ne _ _ ha]
  · have hp := hp.resolve_right h0
    have hl0 : (h.lobj l).length ≠ 0 := by
      rw [hl]; exact fun e => h0 (List.eq_nil_of_length_eq_zero e)
    rcases List.eq_nil_or_concat as with rfl | ⟨as', p, rfl⟩
    · -- at the front
      simp only [List.getLast?_nil] at hp
      subst hp
      simp only [List.nil_append] at *
      have hhd := r.head h0
      obtain ⟨h', he, hN, hL, e1, e2⟩ : ∃ h', insertNodeLL l none n h = (.ok n, h') ∧
          h'.node = upd h.node n { h.node n with next := (h.lobj l).head } ∧
          h'.lobj = upd h.lobj l ⟨some n, (h.lobj l).tail, (h.lobj l).length + 1⟩ ∧
          h'.nNodes = h.nNodes ∧ h'.nLists = h.nLists :=
        ⟨⟨_, _, _, _⟩, by simp [insertNodeLL, run_bind, hl0, setNext, Heap.setNode, Heap.setList, upd_upd],
          rfl, rfl, rfl, rfl⟩
      have hs : Same h h' := by
        intro a; rw [hN]; by_cases ha : a = n <;> simp [upd, ha]
      refine ⟨h', he, r.insert_core (as := []) hlen hn hnb hd hv hs e1 e2 (by simp [hL])
        (by simp [hL]) ?_ (by simp) (by simp),
        ⟨fun a _ ha => ?_, fun a _ ha => ?_, Nat.le_of_eq e1.symm, Nat.le_of_eq e2.symm⟩, hs, e1, e2⟩
      · refine ⟨by simp [hN, hhd, endOf], Lnk.congr (h := h) ?_ r.links⟩
        intro a ha
        rw [hN, upd_ne _ _ (by rintro rfl; exact hn ha)]
      · simp only [not_or] at ha; rw [hN, upd_ne _ _ ha.2]
      · rw [hL, upd_ne _ _ ha]
    · -- after `p`
      simp only [List.concat_eq_append, List.getLast?_append, List.getLast?_singleton,
        Option.some_or] at *
      subst hp
      have hpn : p ≠ n := fun e => hn (by simp [e])
      obtain ⟨h', he, hN, hL, e1, e2⟩ : ∃ h', insertNodeLL l (some p) n h = (.ok n, h') ∧
          h'.node = upd (upd h.node n { h.node n with next := (h.node p).next }) p
            { h.node p with next := some n } ∧
          h'.lobj = upd h.lobj l { h.lobj l with length := (h.lobj l).length + 1 } ∧
          h'.nNodes = h.nNodes ∧ h'.nLists = h.nLists :=
        ⟨⟨_, _, _, _⟩, by simp [insertNodeLL, run_bind, hl0, setNext, Heap.setNode, Heap.setList, upd_upd,
          upd_ne _ _ hpn], rfl, rfl, rfl, rfl⟩
      have hs : Same h h' := by
        intro a; rw [hN]
        by_cases ha : a = p
        · simp [upd, ha]
        · by_cases hb : a = n <;> simp [upd, ha, hb, hpn.symm]
      have hlk := r.links
      have hnd := r.nodup
      rw [List.append_assoc, List.singleton_append] at hlk hnd hn
      obtain ⟨l1, l2, l3⟩ := Lnk_append.1 hlk
      have hpa : p ∉ as' ∧ p ∉ bs := by
        have := (List.perm_middle.nodup_iff.1 hnd)
        rw [List.nodup_cons] at this
        simpa using this.1
      have hna : n ∉ as' ∧ n ∉ bs := by
        simp only [List.mem_append, List.mem_cons, not_or] at hn
        exact ⟨hn.1, hn.2.2⟩
      refine ⟨h', he, r.insert_core hlen (by simpa using hn) hnb hd hv hs e1 e2 (by simp [hL])
        ?_ ?_ (by simp) (by simp),
        ⟨fun a _ ha => ?_, fun a _ ha => ?_, Nat.le_of_eq e1.symm, Nat.le_of_eq e2.symm⟩, hs, e1, e2⟩
      · simp only [hL, upd_same]
        rw [r.head h0]; cases as' <;> simp
      · rw [List.append_assoc, Lnk_append]
        refine ⟨Lnk.congr (h := h) ?_ l1, ?_, ?_, Lnk.congr (h := h) ?_ l3⟩
        · intro a ha
          rw [hN, upd_ne _ _ (by rintro rfl; exact hpa.1 ha), upd_ne _ _ (by rintro rfl; exact hna.1 ha)]
        · simp [hN]
        · rw [hN, upd_ne _ _ hpn.symm, upd_same]; exact l2
        · intro a ha
          rw [hN, upd_ne _ _ (by rintro rfl; exact hpa.2 ha), upd_ne _ _ (by rintro rfl; exact hna.2 ha)]
      · simp only [not_or, List.mem_append, List.mem_cons] at ha
        rw [hN, upd_ne _ _ ha.1.1.2.1, upd_ne _ _ ha.2]
      · rw [hL, upd_ne _ _ ha]

/-- facts about a heap `h'` reached from `h` by writing `_next`/`_prev` of nodes in `W` -/
structure Ptrs (h h' : Heap V X) (l : Addr) (W : Addr → Prop) (o : LObj) : Prop where
  same : Same h h'
  out : ∀ a, ¬ W a → h'.node a = h.node a
  lobj : h'.lobj = upd h.lobj l o
  nNodes : h'.nNodes = h.nNodes
  nLists : h'.nLists = h.nLists

theorem Ptrs.frame {h h' : Heap V X} {l : Addr} {W S : Addr → Prop} {o : LObj}
    (p : Ptrs h h' l W o) (hS : ∀ a, W a → S a) : Frame h h' S (· = l) :=
  ⟨fun a _ ha => p.out a (fun e => ha (hS a e)), fun a _ ha => by rw [p.lobj, upd_ne _ _ ha],
    Nat.le_of_eq p.nNodes.symm, Nat.le_of_eq p.nLists.symm⟩

theorem insertNodeDLL_spec {h : Heap V X} {l : Addr} {as bs : List Addr}
    {ys zs : List V} {n : Addr} {v : V} {prev : Option Addr}
    (r : Rep .dll h l (as ++ bs) (ys ++ zs)) (hlen : as.length = ys.length)
    (hn : n ∉ as ++ bs) (hnb : n < h.nNodes) (hd : (h.node n).data = some v)
    (hv : PyData.norm v = v) (hnx : (h.node n).next = none) (hnp : (h.node n).prev = none)
    (hp : prev = as.getLast? ∨ as ++ bs = []) :
    ∃ h', insertNodeDLL l prev n h = (.ok n, h') ∧ Inserted .dll h h' l as bs ys zs n v := by
  have hl := r.len
  by_cases h0 : as ++ bs = []
  · obtain ⟨rfl, rfl⟩ := List.append_eq_nil_iff.1 h0
    simp only [List.append_nil, List.length_nil] at hl
    obtain ⟨h', he, P⟩ : ∃ h', insertNodeDLL l prev n h = (.ok n, h') ∧
        Ptrs h h' l (fun _ => False) ⟨some n, some n, 1⟩ := by
      refine ⟨?_, ?_, ?_⟩; rotate_left
      · simp [insertNodeDLL, run_bind, hl]; rfl
      · exact ⟨fun a => ⟨rfl, rfl⟩, fun a _ => rfl, by simp [upd_upd], rfl, rfl⟩
    have hN := fun a => P.out a id
    exact ⟨h', he, r.insert_core hlen hn hnb hd hv P.same P.nNodes P.nLists
      (by simp [P.lobj, hl]) (by simp [P.lobj])
      (by simp [Lnk, endOf, hN, hnx]) (by simp [PLnk, hN, hnp]) (by simp [P.lobj]),
      P.frame (by simp), P.same, P.nNodes, P.nLists⟩
  · have hp := hp.resolve_right h0
    have hl0 : (h.lobj l).length ≠ 0 := by
      rw [hl]; exact fun e => h0 (List.eq_nil_of_length_eq_zero e)
    have hnd := r.nodup
    have hlk := r.links
    have hpl := r.plinks rfl
    simp only [endOf] at hlk
    rcases List.eq_nil_or_concat as with rfl | ⟨as', p, rfl⟩
    · -- at the front
      simp only [List.getLast?_nil] at hp
      subst hp
      simp only [List.nil_append] at *
      obtain ⟨b, bs, rfl⟩ := List.exists_cons_of_ne_nil h0
      have hhd := r.head h0
      have htl := r.tail rfl h0
      simp only [List.head?_cons] at hhd
      simp only [List.mem_cons, not_or] at hn
      have hbn := hn.1
      obtain ⟨h', he, P, n1, n2, n3, n4⟩ : ∃ h', insertNodeDLL l none n h = (.ok n, h') ∧
          Ptrs h h' l (fun a => a = n ∨ a = b)
            ⟨some n, (h.lobj l).tail, (h.lobj l).length + 1⟩ ∧
          (h'.node n).next = some b ∧ (h'.node n).prev = none ∧
          (h'.node b).next = (h.node b).next ∧ (h'.node b).prev = some n := by
        have h1 : insertNodeDLL l none n h = (do
            setNext .dll n (some b)
            setHead l (some n)
            setLength l ((h.lobj l).length + 1)
            M.pure n) h := by
          by_cases hc : (h.lobj l).length = 1
          · have : bs = [] := by
              rw [hl] at hc; exact List.eq_nil_of_length_eq_zero (by simpa using hc)
            subst this
            simp [insertNodeDLL, run_bind, hc, htl, setNext]
          · simp [insertNodeDLL, run_bind, hc, hl0, hhd, setNext]
        refine ⟨?_, ?_, ?_⟩; rotate_left
        · rw [h1]; simp [run_bind, setNext]; rfl
        · refine ⟨⟨fun a => ?_, fun a ha => ?_, by simp [upd_upd], rfl, rfl⟩, ?_, ?_, ?_, ?_⟩
          · by_cases e1 : a = n <;> by_cases e2 : a = b <;>
              simp [upd, e1, e2, hbn, Ne.symm hbn]
            all_goals simp_all
          · simp only [not_or] at ha; simp [upd, ha]
          all_goals simp [upd, hbn, Ne.symm hbn, hnp]
      refine ⟨h', he, r.insert_core (as := []) hlen (by simp [hn]) hnb hd hv P.same P.nNodes
        P.nLists (by simp [P.lobj]) (by simp [P.lobj]) ?_ ?_ ?_,
        P.frame ?_, P.same, P.nNodes, P.nLists⟩
      · refine ⟨by simpa using n1, Lnk.congr (h := h) ?_ hlk⟩
        intro a ha
        by_cases e : a = b
        · rw [e, n3]
        · rw [P.out a]
          rintro (rfl | rfl)
          · simp_all
          · exact e rfl
      · intro _
        refine ⟨n2, n4, PLnk.congr (h := h) ?_ hpl.2⟩
        intro a ha
        rw [P.out a]
        rintro (rfl | rfl)
        · exact hn.2 ha
        · exact (List.nodup_cons.1 hnd).1 ha
      · intro _; simp [P.lobj, htl]
      · rintro a (rfl | rfl) <;> simp
    · simp only [List.concat_eq_append, List.getLast?_append, List.getLast?_singleton,
        Option.some_or] at *
      subst hp
      have hpn : p ≠ n := fun e => hn (by simp [e])
      rw [List.append_assoc, List.singleton_append] at hlk hnd hpl hn
      obtain ⟨l1, l2, l3⟩ := Lnk_append.1 hlk
      obtain ⟨q1, q2, q3⟩ := PLnk_append.1 hpl
      have hpa : p ∉ as' ∧ p ∉ bs := by
        have := (List.perm_middle.nodup_iff.1 hnd)
        rw [List.nodup_cons] at this
        simpa using this.1
      have hna : n ∉ as' ∧ n ∉ bs := by
        simp only [List.mem_append, List.mem_cons, not_or] at hn
        exact ⟨hn.1, hn.2.2⟩
      have htl := r.tail rfl h0
      have hhd := r.head h0
      cases bs with
      | nil =>
        -- at the end
        have hnext : (h.node p).next = none := by simpa using l2
        simp only [List.append_nil, List.getLast?_append, List.getLast?_singleton,
          Option.some_or] at htl hhd
        obtain ⟨h', he, P, n1, n2, n3, n4⟩ : ∃ h', insertNodeDLL l (some p) n h = (.ok n, h') ∧
            Ptrs h h' l (fun a => a = n ∨ a = p)
              ⟨(h.lobj l).head, some n, (h.lobj l).length + 1⟩ ∧
            (h'.node n).next = none ∧ (h'.node n).prev = some p ∧
            (h'.node p).next = some n ∧ (h'.node p).prev = (h.node p).prev := by
          have h1 : ∃ h', insertNodeDLL l (some p) n h = (.ok n, h') ∧
              h' = ((h.setNode p { h.node p with next := some n }).setNode n
                { h.node n with prev := some p }).setList l
                ⟨(h.lobj l).head, some n, (h.lobj l).length + 1⟩ := by
            by_cases hc : (h.lobj l).length = 1
            · have : as' = [] := by
                rw [hl] at hc; exact List.eq_nil_of_length_eq_zero (by simpa using hc)
              subst this
              simp only [List.nil_append, List.head?_cons] at hhd
              refine ⟨_, ?_, rfl⟩
              simp [insertNodeDLL, run_bind, hc, hhd, setNext, Heap.setNode, Heap.setList, upd_upd,
                upd_ne _ _ hpn, upd_ne _ _ hpn.symm]
            · refine ⟨_, ?_, rfl⟩
              simp [insertNodeDLL, run_bind, hc, hl0, htl, hnext, setNext, Heap.setNode,
                Heap.setList, upd_upd, upd_ne _ _ hpn, upd_ne _ _ hpn.symm]
          obtain ⟨h', he, rfl⟩ := h1
          refine ⟨_, he, ⟨fun a => ?_, fun a ha => ?_, rfl, rfl, rfl⟩, ?_, ?_, ?_, ?_⟩
          · by_cases e1 : a = n
            · subst e1; simp
            · by_cases e2 : a = p
              · subst e2; simp [upd_ne _ _ e1]
              · simp [upd_ne _ _ e1, upd_ne _ _ e2]
          · simp only [not_or] at ha; simp [upd, ha]
          all_goals simp [upd, hpn, Ne.symm hpn, hnx]
        refine ⟨h', he, r.insert_core hlen (by simpa using hn) hnb hd hv P.same P.nNodes
          P.nLists (by simp [P.lobj]) ?_ ?_ ?_ ?_,
          P.frame ?_, P.same, P.nNodes, P.nLists⟩
        · simp only [P.lobj, upd_same]; rw [hhd]; cases as' <;> simp
        · simp only [endOf]
          rw [List.append_assoc, Lnk_append]
          refine ⟨Lnk.congr (h := h) ?_ l1, by simpa using n3, by simpa using n1, trivial⟩
          intro a ha
          rw [P.out a]
          rintro (rfl | rfl)
          · exact hna.1 ha
          · exact hpa.1 ha
        · intro _
          rw [List.append_assoc, PLnk_append]
          refine ⟨PLnk.congr (h := h) ?_ q1, by rw [n4, q2], n2, trivial⟩
          intro a ha
          rw [P.out a]
          rintro (rfl | rfl)
          · exact hna.1 ha
          · exact hpa.1 ha
        · intro _; simp [P.lobj]
        · rintro a (rfl | rfl) <;> simp
      | cons b bs =>
        have hnext : (h.node p).next = some b := by simpa using l2
        have hl1 : (h.lobj l).length ≠ 1 := by rw [hl]; simp; omega
        simp only [List.mem_cons, not_or] at hpa hna
        have hbn : b ≠ n := fun e => hna.2.1 e.symm
        have hbp : b ≠ p := fun e => hpa.2.1 e.symm
        have hba : b ∉ as' ∧ b ∉ bs := by
          have h1 := (List.nodup_append.1 hnd)
          have h2 := List.nodup_cons.1 (List.nodup_cons.1 h1.2.1).2
          exact ⟨fun e => h1.2.2 b e b (by simp) rfl, h2.1⟩
        obtain ⟨h', he, P, n1, n2, n3, n4, n5, n6⟩ :
            ∃ h', insertNodeDLL l (some p) n h = (.ok n, h') ∧
            Ptrs h h' l (fun a => a = n ∨ a = p ∨ a = b)
              ⟨(h.lobj l).head, (h.lobj l).tail, (h.lobj l).length + 1⟩ ∧
            (h'.node n).next = some b ∧ (h'.node n).prev = some p ∧
            (h'.node p).next = some n ∧ (h'.node p).prev = (h.node p).prev ∧
            (h'.node b).next = (h.node b).next ∧ (h'.node b).prev = some n := by
          refine ⟨?_, ?_, ?_⟩; rotate_left
          · simp [insertNodeDLL, run_bind, hl1, hl0, hnext, setNext]; rfl
          · refine ⟨⟨fun a => ?_, fun a ha => ?_, by simp, rfl, rfl⟩, ?_, ?_, ?_, ?_, ?_, ?_⟩
            · by_cases e1 : a = n
              · subst e1; simp [upd, hpn, hpn.symm, hbn, hbn.symm, hbp, hbp.symm]
              · by_cases e2 : a = p
                · subst e2; simp [upd, hpn, hpn.symm, hbn, hbn.symm, hbp, hbp.symm]
                · by_cases e3 : a = b
                  · subst e3; simp [upd, hpn, hpn.symm, hbn, hbn.symm, hbp, hbp.symm]
                  · simp [upd, e1, e2, e3]
            · simp only [not_or] at ha; simp [upd, ha]
            all_goals simp [upd, hpn, hpn.symm, hbn, hbn.symm, hbp, hbp.symm]
        have hout : ∀ a, a ≠ n → a ≠ p → a ≠ b → h'.node a = h.node a := fun a x y z =>
          P.out a (by simp [x, y, z])
        refine ⟨h', he, r.insert_core hlen (by simpa using hn) hnb hd hv P.same P.nNodes
          P.nLists (by simp [P.lobj]) ?_ ?_ ?_ ?_,
          P.frame ?_, P.same, P.nNodes, P.nLists⟩
        · simp only [P.lobj, upd_same]; rw [hhd]; cases as' <;> simp
        · simp only [endOf]
          rw [List.append_assoc, Lnk_append]
          refine ⟨Lnk.congr (h := h) ?_ l1, by simpa using n3, by simpa using n1,
            by rw [n5]; exact l3.1, Lnk.congr (h := h) ?_ l3.2⟩
          · intro a ha
            rw [hout a (by rintro rfl; exact hna.1 ha) (by rintro rfl; exact hpa.1 ha)
              (by rintro rfl; exact hba.1 ha)]
          · intro a ha
            rw [hout a (by rintro rfl; exact hna.2.2 ha) (by rintro rfl; exact hpa.2.2 ha)
              (by rintro rfl; exact hba.2 ha)]
        · intro _
          rw [List.append_assoc, PLnk_append]
          refine ⟨PLnk.congr (h := h) ?_ q1, by rw [n4, q2], n2, n6,
            PLnk.congr (h := h) ?_ q3.2⟩
          · intro a ha
            rw [hout a (by rintro rfl; exact hna.1 ha) (by rintro rfl; exact hpa.1 ha)
              (by rintro rfl; exact hba.1 ha)]
          · intro a ha
            rw [hout a (by rintro rfl; exact hna.2.2 ha) (by rintro rfl; exact hpa.2.2 ha)
              (by rintro rfl; exact hba.2 ha)]
        · intro _
          simp only [P.lobj, upd_same]; rw [htl]; simp [List.getLast?_append, List.getLast?_cons]
        · rintro a (rfl | rfl | rfl) <;> simp

/-- Which nodes the list has after inserting the node `n` between `as` and `bs`.  At the front of a
circular list that is not empty the code keeps the head node and puts `n` after it. -/
def putNodes (k : Kind) (as : List Addr) (n : Addr) (bs : List Addr) : List Addr :=
  match k, as, bs with
  | .cll, [], b :: bs => b :: n :: bs
  | _, as, bs => as ++ n :: bs

theorem insertNodeCLL_spec {h : Heap V X} {l : Addr} {as bs : List Addr}
    {ys zs : List V} {n : Addr} {v : V} {prev : Option Addr}
    (r : Rep .cll h l (as ++ bs) (ys ++ zs)) (hlen : as.length = ys.length)
    (hn : n ∉ as ++ bs) (hnb : n < h.nNodes) (hd : (h.node n).data = some v)
    (hv : PyData.norm v = v) (hp : prev = as.getLast? ∨ as ++ bs = []) :
    ∃ h' m ns', insertNodeCLL l prev n h = (.ok m, h') ∧
      Rep .cll h' l ns' (ys ++ v :: zs) ∧ ns'.Perm (n :: (as ++ bs)) ∧
      ns'[as.length]? = some m ∧
      Frame h h' (fun a => a ∈ as ++ bs ∨ a = n) (· = l) ∧ h'.nNodes = h.nNodes ∧
      h'.nLists = h.nLists ∧ (as ++ bs = [] ∨ as ≠ [] → m = n) ∧
      ns' = putNodes .cll as n bs := by
  have hl := r.len
  by_cases h0 : as ++ bs = []
  · obtain ⟨rfl, rfl⟩ := List.append_eq_nil_iff.1 h0
    simp only [List.append_nil, List.length_nil] at hl
    obtain ⟨h', he, hN, hL, e1, e2⟩ : ∃ h', insertNodeCLL l prev n h = (.ok n, h') ∧
        h'.node = upd h.node n { h.node n with next := some n } ∧
        h'.lobj = upd h.lobj l ⟨some n, (h.lobj l).tail, 1⟩ ∧
        h'.nNodes = h.nNodes ∧ h'.nLists = h.nLists :=
      ⟨⟨_, _, _, _⟩, by simp [insertNodeCLL, run_bind, hl, setNext, Heap.setNode, Heap.setList, upd_upd],
        rfl, rfl, rfl, rfl⟩
    have hs : Same h h' := by
      intro a; rw [hN]; by_cases ha : a = n <;> simp [upd, ha]
    refine ⟨h', n, [n], he, r.insert_core hlen hn hnb hd hv hs e1 e2 (by simp [hL, hl])
      (by simp [hL]) (by simp [Lnk, endOf, hN]) (by simp) (by simp), by simp, by simp,
      ⟨fun a _ ha => ?_, fun a _ ha => ?_, Nat.le_of_eq e1.symm, Nat.le_of_eq e2.symm⟩, e1, e2,
      fun _ => rfl, rfl⟩
    · simp only [not_or] at ha; rw [hN, upd_ne _ _ ha.2]
    · rw [hL, upd_ne _ _ ha]
  · have hp := hp.resolve_right h0
    have hl0 : (h.lobj l).length ≠ 0 := by
      rw [hl]; exact fun e => h0 (List.eq_nil_of_length_eq_zero e)
    rcases List.eq_nil_or_concat as with rfl | ⟨as', p, rfl⟩
    · -- at the front: the head keeps its place and swaps data with the new node
      simp only [List.getLast?_nil] at hp
      subst hp
      have hys : ys = [] := List.eq_nil_of_length_eq_zero (by simpa using hlen.symm)
      subst hys
      simp only [List.nil_append] at *
      obtain ⟨b, bs, rfl⟩ := List.exists_cons_of_ne_nil h0
      have hhd := r.head h0
      simp only [List.head?_cons] at hhd
      simp only [List.mem_cons, not_or] at hn
      have hbn : b ≠ n := fun e => hn.1 e.symm
      obtain ⟨h', he, hN, hL, e1, e2⟩ : ∃ h', insertNodeCLL l none n h = (.ok b, h') ∧
          h'.node = upd (upd h.node n
              { h.node n with next := (h.node b).next, data := (h.node b).data })
            b { h.node b with next := some n, data := (h.node n).data } ∧
          h'.lobj = upd h.lobj l { h.lobj l with length := (h.lobj l).length + 1 } ∧
          h'.nNodes = h.nNodes ∧ h'.nLists = h.nLists := by
        refine ⟨⟨_, _, _, _⟩, ?_, rfl, rfl, rfl, rfl⟩
        simp [insertNodeCLL, run_bind, hl0, hhd, setNext, Heap.setNode, Heap.setList,
          upd_ne _ _ hbn, upd_ne _ _ hbn.symm]
        funext a
        by_cases x : a = n <;> by_cases y : a = b <;> simp [upd, x, y, hbn, hbn.symm]
      have hnd := List.nodup_cons.1 r.nodup
      have ho : ∀ a ∈ bs, h'.node a = h.node a := by
        intro a ha
        rw [hN, upd_ne _ _ (by rintro rfl; exact hnd.1 ha),
          upd_ne _ _ (by rintro rfl; exact hn.2 ha)]
      obtain ⟨z, zs', rfl⟩ : ∃ z zs', zs = z :: zs' := by
        have := r.length_eq
        cases zs with
        | nil => simp at this
        | cons z zs' => exact ⟨z, zs', rfl⟩
      have hdat := r.data
      simp only [List.map_cons, List.cons.injEq] at hdat
      have hlk := r.links
      have hb0 : (h'.node b).next = some n ∧ (h'.node b).data = some v := by simp [hN, hd]
      have hn0 : (h'.node n).next = (h.node b).next ∧ (h'.node n).data = (h.node b).data := by
        simp [hN, upd_ne _ _ hbn.symm]
      refine ⟨h', b, b :: n :: bs, he,
        ⟨?_, ?_, ?_, ?_, ?_, ?_, ?_, ?_, ?_, by simp, by simp⟩, List.Perm.swap _ _ _, by simp,
        ⟨fun a _ ha => ?_, fun a _ ha => ?_, Nat.le_of_eq e1.symm, Nat.le_of_eq e2.symm⟩, e1, e2,
        by simp, rfl⟩
      · simp [hL, hl]
      · simp only [List.map_cons, hb0.2, hn0.2, hdat.1, ← hdat.2]
        congr 2
        exact List.map_congr_left (fun a ha => by rw [ho a ha])
      · intro x hx
        rcases List.mem_cons.1 hx with rfl | hx
        · exact hv
        · exact r.normed x hx
      · simp only [List.nodup_cons, List.mem_cons, not_or]
        exact ⟨⟨hbn, hnd.1⟩, hn.2, hnd.2⟩
      · intro a ha
        rw [e1]
        simp only [List.mem_cons] at ha
        rcases ha with rfl | rfl | ha
        · exact r.bound a (by simp)
        · exact hnb
        · exact r.bound a (by simp [ha])
      · rw [e2]; exact r.lbound
      · intro _; simp [hL, hhd]
      · intro a ha; rw [hL] at ha; rw [e1]; exact r.hbound a (by simpa using ha)
      · refine ⟨by simp [hb0.1], by rw [hn0.1]; exact hlk.1,
          Lnk.congr (h := h) (fun a ha => by rw [ho a ha]) hlk.2⟩
      · simp only [not_or, List.mem_cons] at ha
        rw [hN, upd_ne _ _ ha.1.1, upd_ne _ _ ha.2]
      · rw [hL, upd_ne _ _ ha]
    · -- after `p`
      simp only [List.concat_eq_append, List.getLast?_append, List.getLast?_singleton,
        Option.some_or] at *
      subst hp
      have hpn : p ≠ n := fun e => hn (by simp [e])
      obtain ⟨h', he, hN, hL, e1, e2⟩ : ∃ h', insertNodeCLL l (some p) n h = (.ok n, h') ∧
          h'.node = upd (upd h.node n { h.node n with next := (h.node p).next }) p
            { h.node p with next := some n } ∧
          h'.lobj = upd h.lobj l { h.lobj l with length := (h.lobj l).length + 1 } ∧
          h'.nNodes = h.nNodes ∧ h'.nLists = h.nLists :=
        ⟨⟨_, _, _, _⟩, by simp [insertNodeCLL, run_bind, hl0, setNext, Heap.setNode, Heap.setList, upd_upd,
          upd_ne _ _ hpn], rfl, rfl, rfl, rfl⟩
      have hs : Same h h' := by
        intro a; rw [hN]
        by_cases ha : a = p
        · simp [upd, ha]
        · by_cases hb : a = n <;> simp [upd, ha, hb, hpn.symm]
      have hlk := r.links
      have hnd := r.nodup
      have hend : endOf .cll (as' ++ [p] ++ n :: bs) = endOf .cll (as' ++ [p] ++ bs) := by
        cases as' <;> simp [endOf]
      rw [List.append_assoc, List.singleton_append] at hnd hn
      rw [List.append_assoc] at hlk
      obtain ⟨l1, l2, l3⟩ := Lnk_append.1 hlk
      have hpa : p ∉ as' ∧ p ∉ bs := by
        have := (List.perm_middle.nodup_iff.1 hnd)
        rw [List.nodup_cons] at this
        simpa using this.1
      have hna : n ∉ as' ∧ n ∉ bs := by
        simp only [List.mem_append, List.mem_cons, not_or] at hn
        exact ⟨hn.1, hn.2.2⟩
      refine ⟨h', n, as' ++ [p] ++ n :: bs, he,
        r.insert_core hlen (by simpa using hn) hnb hd hv hs e1 e2 (by simp [hL])
        ?_ ?_ (by simp) (by simp), List.perm_middle, by simp,
        ⟨fun a _ ha => ?_, fun a _ ha => ?_, Nat.le_of_eq e1.symm, Nat.le_of_eq e2.symm⟩, e1, e2,
        fun _ => rfl, by cases as' <;> rfl⟩
      · simp only [hL, upd_same]
        rw [r.head h0]; cases as' <;> simp
      · rw [hend, List.append_assoc, Lnk_append]
        rw [List.append_assoc]
        refine ⟨Lnk.congr (h := h) ?_ l1, ?_, ?_, Lnk.congr (h := h) ?_ l3⟩
        · intro a ha
          rw [hN, upd_ne _ _ (by rintro rfl; exact hpa.1 ha),
            upd_ne _ _ (by rintro rfl; exact hna.1 ha)]
        · simp [hN]
        · rw [hN, upd_ne _ _ hpn.symm, upd_same]; exact l2
        · intro a ha
          rw [hN, upd_ne _ _ (by rintro rfl; exact hpa.2 ha),
            upd_ne _ _ (by rintro rfl; exact hna.2 ha)]
      · simp only [not_or, List.mem_append, List.mem_cons] at ha
        rw [hN, upd_ne _ _ ha.1.1.2.1, upd_ne _ _ ha.2]
      · rw [hL, upd_ne _ _ ha]

/-- contract of `_insert_node` for all classes -/
theorem insertNode_spec {k : Kind} {h : Heap V X} {l : Addr} {as bs : List Addr}
    {ys zs : List V} {n : Addr} {v : V} {prev : Option Addr}
    (r : Rep k h l (as ++ bs) (ys ++ zs)) (hlen : as.length = ys.length)
    (hn : n ∉ as ++ bs) (hnb : n < h.nNodes) (hd : (h.node n).data = some v)
    (hv : PyData.norm v = v) (hnx : (h.node n).next = none) (hnp : (h.node n).prev = none)
    (hp : prev = as.getLast? ∨ as ++ bs = []) :
    ∃ h' m ns', insertNode k l prev n h = (.ok m, h') ∧
      Rep k h' l ns' (ys ++ v :: zs) ∧ ns'.Perm (n :: (as ++ bs)) ∧
      ns'[as.length]? = some m ∧
      Frame h h' (fun a => a ∈ as ++ bs ∨ a = n) (· = l) ∧ h'.nNodes = h.nNodes ∧
      h'.nLists = h.nLists ∧ (as ++ bs = [] ∨ as ≠ [] → m = n) ∧
      (k ≠ .cll → m = n ∧ ns' = as ++ n :: bs ∧ Same h h') ∧ ns' = putNodes k as n bs := by
  cases k with
  | ll =>
    obtain ⟨h', he, h1, h2, h3, h4, h5⟩ := insertNodeLL_spec r hlen hn hnb hd hv hp
    exact ⟨h', n, _, he, h1, List.perm_middle, by simp, h2, h4, h5, fun _ => rfl,
      fun _ => ⟨rfl, rfl, h3⟩, by simp [putNodes]⟩
  | dll =>
    obtain ⟨h', he, h1, h2, h3, h4, h5⟩ := insertNodeDLL_spec r hlen hn hnb hd hv hnx hnp hp
    exact ⟨h', n, _, he, h1, List.perm_middle, by simp, h2, h4, h5, fun _ => rfl,
      fun _ => ⟨rfl, rfl, h3⟩, by simp [putNodes]⟩
  | cll =>
    obtain ⟨h', m, ns', he, h1, h2, h3, h4, h5, h6, h7, h8⟩ :=
      insertNodeCLL_spec r hlen hn hnb hd hv hp
    exact ⟨h', m, ns', he, h1, h2, h3, h4, h5, h6, h7, fun hk => absurd rfl hk, h8⟩

end Extra
