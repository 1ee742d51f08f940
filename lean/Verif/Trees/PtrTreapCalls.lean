import Verif.Trees.PtrTreapProofs

/-!
# `Treap` on node objects: the calls agree with the model on trees as values
-/

set_option linter.unusedSimpArgs false
set_option linter.unusedSectionVars false

namespace Extra
variable {N P : Type} [LinearOrder N] [LinearOrder P]

section
variable {s : PTree N P} {t : Bst N P}

theorem treap_insert (m1 : P) (h : PtrHolds s t) (v : NumArg N) (p : TreapPrio P) {r : BstRes N} {t' : Bst N P}
    (e : treapExec m1 t (.insert v p) = .ok (r, t')) : Gives (pTreapInsertNum v p) s r t' := by
  have h' : PtrHolds { s with warned := false } t := holds_warned h false
  cases v with
  | none => cases e; exact gives_error rfl h'
  | other => cases e; exact gives_error rfl h'
  | num v =>
    unfold pTreapInsertNum
    simp only [treapExec, treapInsertNum, validNum] at e ⊢
    cases hp : p.value with
    | error y => rw [hp] at e; cases e; exact gives_error rfl h'
    | ok x =>
    rw [hp] at e
    simp only at e ⊢
    obtain ⟨T, Z, h1, h2⟩ := h'
    cases T with
    | nil =>
      have ht : t.root = .nil := h1.symm
      simp only [ht, Except.ok.injEq, Prod.mk.injEq] at e
      obtain ⟨rfl, rfl⟩ := e
      obtain ⟨s', e', Z', hl, hwn⟩ := pm_insertNum_empty (pTreapInsert x) x v (Z.root rfl)
      refine gives_ok e' (by rw [hwn]) ⟨_, Z', rfl, ?_⟩
      rw [hl, h2]
    | node l w r' =>
      have ht : t.root = .node l.forget (w.1, w.2.1) r'.forget := h1.symm
      have ht' : t.root = (BTree.node l w r').forget := h1.symm
      have e0 : pRoot { s with warned := false } = (.ok (some w.2.2), { s with warned := false }) := by
        rw [pm_root, Z.root rfl]; rfl
      simp only [ht, bind, Except.bind, pure, Except.pure] at e
      rw [← ht, ht'] at e
      cases hS : (BTree.node l w r').forget.treapInsert (v, x) with
      | error y => rw [hS] at e; cases e
      | ok y =>
        obtain ⟨S, on, new⟩ := y
        rw [hS] at e
        simp only [Except.ok.injEq, Prod.mk.injEq] at e
        obtain ⟨rfl, rfl⟩ := e
        obtain ⟨i1, i2⟩ := treapInsert_climb (v, x) _ hS
        rw [forget_insertPath, forget_walk] at i1 i2
        rw [← forgetAll_above] at i2
        have hfin : ∀ (a : Addr) (q : Option Addr) (s1 s2 : PTree N P),
            pInsert (plainClass P) x (s.next + 1) v { s with warned := false } = (.ok (some a), s1) →
            pParent (some a) s1 = (.ok q, s1) →
            pTreapUp (s1.next + 1) (some a) q s1 = (.ok (), s2) →
            pInsertNum (pTreapInsert x) x (.num v) { s with warned := false } = (.ok .unit, s2) := by
          intro a q s1 s2 e1 e2 e3
          refine (pm_bind_ok e0).trans ?_
          exact (pm_bind_ok ((pm_bind_ok (pm_fuel _)).trans <| (pm_bind_ok e1).trans <|
            (pm_bind_ok e2).trans <| (pm_bind_ok (pm_fuel _)).trans <| (pm_bind_ok e3).trans rfl)).trans rfl
        by_cases h0 : (BTree.node l w r').walk ((BTree.node l w r').insertPath v) = .nil
        · have hnew : new = true := i1.mpr (by rw [h0]; rfl)
          subst hnew
          obtain ⟨s1, e1, Z1, hl, hwn, _⟩ := pm_insert_new (C := plainClass P) (x := x) Z (by simp) h0 (s.next + 1)
            (Nat.le_succ _)
          rw [attached_plain'] at Z1
          rw [if_pos rfl] at i2
          have hc := ctx_length_le Z1
          obtain ⟨s2, U, a1, a2, a3, a4, a5, a6⟩ := pm_treapUp _ (n := (v, (x, s.next))) Z1 i2 (s1.next + 1) (by omega)
          refine gives_ok (hfin _ _ _ _ e1 (pm_parent Z1.rep.1) a1) (by rw [a5, hwn]; rfl) ⟨U, a2, a3, ?_⟩
          rw [a4, hl]; simp [← h2]
        · have hnew : new = false := by
            cases new with
            | false => rfl
            | true => exact absurd (forget_nil (i1.mp rfl)) h0
          subst hnew
          obtain ⟨s1, e1, Z1, hl, hwn, _⟩ := pm_insert_found (C := plainClass P) (x := x) Z (by simp) h0 (s.next + 1)
            (Nat.le_succ _)
          rw [if_neg (by simp)] at i2
          cases hw : (BTree.node l w r').walk ((BTree.node l w r').insertPath v) with
          | nil => exact absurd hw h0
          | node a y b =>
            rw [hw] at e1 i2
            have Z1' := Z1.descend (q := (BTree.node l w r').insertPath v)
            rw [descend_eq, hw, List.append_nil] at Z1'
            have hc := ctx_length_le Z1'
            obtain ⟨s2, U, a1, a2, a3, a4, a5, a6⟩ := pm_treapUp _ Z1' i2 (s1.next + 1) (by omega)
            refine gives_ok (hfin _ _ _ _ e1 (pm_parent Z1'.rep.1) a1) (by rw [a5, hwn]; rfl) ⟨U, a2, a3, ?_⟩
            rw [a4, hl]; simp [← h2]

theorem treapRemoveNum_inner (m1 : P) (t : Bst N P) (v : N) (hl : t.root.isLeaf = false) (h0 : t.root ≠ .nil) :
    treapRemoveNum m1 t (.num v) = (t.root.treapRemove m1 v).bind fun
      | none => .ok (.ok (.unit, true), t)
      | some x => .ok (.ok (.unit, false), ⟨x.1, t.length - 1⟩) := by
  obtain ⟨root, len⟩ := t
  have fin : ∀ x : Except Err (Option (BTree (N × P) × Option N)), (do
      match ← x with
      | none => pure (.ok (.unit, true), (⟨root, len⟩ : Bst N P))
      | some (s, _) => pure (.ok (.unit, false), ⟨s, len - 1⟩)) = x.bind fun
      | none => .ok ((.ok (.unit, true) : BstRes N), ⟨root, len⟩)
      | some x => .ok (.ok (.unit, false), ⟨x.1, len - 1⟩) := by
    intro x
    rcases x with y | _ | ⟨a, b⟩ <;> rfl
  rcases root with _ | ⟨_ | ⟨a, u, b⟩, w, _ | ⟨c, x, d⟩⟩
  · exact absurd rfl h0
  · simp [BTree.isLeaf] at hl
  all_goals exact fin _

theorem addrs_length {X : Type} (t : ATree N X) : t.addrs.length = t.forget.inorder.length := by
  induction t with
  | nil => rfl
  | node l w r ihl ihr =>
    rw [show (BTree.node l w r).forget = .node l.forget (w.1, w.2.1) r.forget from rfl]
    simp only [BTree.addrs, BTree.inorder, List.length_cons, List.length_append, ihl, ihr]
    simp; omega

theorem inorder_forget {X : Type} (t : ATree N X) : t.forget.inorder = t.inorder.map fun x => (x.1, x.2.1) := by
  induction t with
  | nil => rfl
  | node l w r ihl ihr =>
    rw [show (BTree.node l w r).forget = .node l.forget (w.1, w.2.1) r.forget from rfl]
    simp [BTree.inorder, ihl, ihr]

/-- what `remove` gives: the answer of the value model; or its exception, and the pairs are as before -/
theorem treap_remove (m1 : P) (h : PtrHolds s t) (hs : t.root.keys.Pairwise (· < ·)) (v : NumArg N) :
    (∀ r t', treapExec m1 t (.remove v) = .ok (r, t') → Gives (pRemoveNum (pTreapRemove m1) v) s r t') ∧
    ∀ e, treapExec m1 t (.remove v) = .error e → ∃ t', Gives (pRemoveNum (pTreapRemove m1) v) s (.error e) t' ∧
      t'.root.inorder = t.root.inorder ∧ t'.length = t.length := by
  have h' : PtrHolds { s with warned := false } t := holds_warned h false
  cases v with
  | none => exact ⟨fun r t' e => by cases e; exact gives_ok rfl rfl (holds_warned h true), fun e he => by cases he⟩
  | other => exact ⟨fun r t' e => by cases e; exact gives_ok rfl rfl (holds_warned h true), fun e he => by cases he⟩
  | num v =>
    have hh := h'
    obtain ⟨T, Z, h1, h2⟩ := h'
    cases T with
    | nil =>
      have ht : t.root = .nil := h1.symm
      have e0 : pRoot { s with warned := false } = (.ok none, { s with warned := false }) := by
        rw [pm_root, Z.root rfl]; rfl
      simp only [treapExec, treapRemoveNum, ht]
      refine ⟨fun r t' e => ?_, fun e he => by cases he⟩
      cases e
      exact gives_ok ((pm_bind_ok e0).trans rfl) rfl (holds_warned h true)
    | node l w r' =>
      have ht : t.root = .node l.forget (w.1, w.2.1) r'.forget := h1.symm
      have ht' : t.root = (BTree.node l w r').forget := h1.symm
      have hsT : (BTree.node l w r').keys.Pairwise (· < ·) := by rw [← forget_keys, ← ht']; exact hs
      have e0 : pRoot { s with warned := false } = (.ok (some w.2.2), { s with warned := false }) := by
        rw [pm_root, Z.root rfl]; rfl
      have start : ∀ {k : PM N P (BstVal N)}, k = (do
            if ((l.ptr.isNone && r'.ptr.isNone) = true ∧ v = w.1) then do
              pSetRoot none
              pAddLength (-1)
              return .unit
            else do
              pTreapRemove m1 v
              return .unit) →
          pRemoveNum (pTreapRemove m1) (.num v) { s with warned := false } = k { s with warned := false } := by
        rintro k rfl
        exact (pm_bind_ok e0).trans <| (pm_bind_ok (pm_isLeaf Z.rep.1)).trans <| (pm_bind_ok (pm_data Z.rep.1)).trans rfl
      have hsearch : pSearch v (s.next + 1) (some w.2.2) { s with warned := false } =
          (.ok ((BTree.node l w r').walk ((BTree.node l w r').search v)).ptr, { s with warned := false }) := by
        have := Z.length_le
        exact pm_search v Z.rep (by simp) (s.next + 1) (by simpa using Nat.le_succ_of_le this)
      obtain ⟨A, U, B, hw⟩ : ∃ A U B, (BTree.node l w r').walk ((BTree.node l w r').search v) = .node A U B := by
        cases hc : (BTree.node l w r').walk ((BTree.node l w r').search v) with
        | nil => exact absurd hc (search_walk_ne _ _ (by simp))
        | node A U B => exact ⟨A, U, B, rfl⟩
      rw [hw] at hsearch
      have Z1 := Z.descend (q := (BTree.node l w r').search v)
      rw [descend_eq, hw, List.append_nil] at Z1
      have hdata : (BTree.node l w r').dataAt ((BTree.node l w r').search v) = some U.1 := by
        simp only [BTree.dataAt, hw]
      -- the value is not there
      have missing : ¬((l.ptr.isNone && r'.ptr.isNone) = true ∧ v = w.1) → U.1 ≠ v →
          Gives (pRemoveNum (pTreapRemove m1) (.num v)) s (.ok (.unit, true)) t := by
        intro hc hd
        refine gives_ok (s' := { s with warned := true }) ((start rfl).trans ?_) rfl (holds_warned h true)
        rw [if_neg hc]
        refine (pm_bind_ok (a := ()) ?_).trans rfl
        refine (pm_bind_ok (pm_fuel _)).trans <| (pm_bind_ok e0).trans <| (pm_bind_ok hsearch).trans <|
          (pm_bind_ok (pm_data Z1.rep.1)).trans ?_
        rw [if_pos hd]; rfl
      by_cases hlf : (BTree.node l w r').isLeaf = true
      · obtain ⟨rfl, rfl⟩ := isLeaf_iff.mp hlf
        have htl : t.root = .node .nil (w.1, w.2.1) .nil := ht
        by_cases hv : v = w.1
        · simp only [treapExec, treapRemoveNum, htl, if_pos hv]
          refine ⟨fun r t' e => ?_, fun e he => by cases he⟩
          cases e
          refine gives_ok (s' := { s with warned := false, root := none, length := s.length - 1 }) ((start rfl).trans ?_)
            rfl ⟨.nil, ⟨?_, trivial, ?_, ?_⟩, rfl, ?_⟩
          · rw [if_pos ⟨rfl, hv⟩]; rfl
          · rfl
          · simp [BTree.addrs, ctxAddrs]
          · simp [BTree.addrs, ctxAddrs]
          · simpa using h2
        · simp only [treapExec, treapRemoveNum, htl, if_neg hv]
          refine ⟨fun r t' e => ?_, fun e he => by cases he⟩
          cases e
          have hU : U = w := by
            have hs : (BTree.node .nil w .nil : ATree N P).search v = [] := by
              simp [BTree.search, hv]
            rw [hs] at hw
            simp only [BTree.walk, BTree.node.injEq] at hw
            exact hw.2.1.symm
          exact missing (fun hc => hv hc.2) (by rw [hU]; exact fun hc => hv hc.symm)
      · have hlf' : (BTree.node l w r').isLeaf = false := by simpa using hlf
        have hnl : ¬(l = .nil ∧ r' = .nil) := fun hc => hlf (isLeaf_iff.mpr hc)
        have hcond : ¬((l.ptr.isNone && r'.ptr.isNone) = true ∧ v = w.1) := by
          rintro ⟨hc, -⟩
          cases l <;> cases r' <;> first | exact hnl ⟨rfl, rfl⟩ | simp [BTree.ptr] at hc
        have hval := treapRemoveNum_inner m1 t v (by rw [ht', forget_isLeaf, hlf']) (by rw [ht]; simp)
        obtain ⟨q1, q2⟩ := treapRemove_path m1 v t.root hs (by rw [ht]; simp)
        simp only [treapExec, hval]
        by_cases hU : U.1 = v
        · have hw' : t.root.walk (t.root.search v) = .node A.forget (U.1, U.2.1) B.forget := by
            rw [ht', forget_search, forget_walk, hw]; rfl
          obtain ⟨q3, q4⟩ := q2 _ _ _ hw' hU
          have hfuel : (BTree.node A U B).addrs.length +
              ((BTree.node l w r').above ((BTree.node l w r').search v)).length ≤ s.next :=
            ctx_length_le (s := { s with warned := false }) Z1
          have hn : A.addrs.length + B.addrs.length < s.next + 1 := by
            have : (BTree.node A U B).addrs.length = A.addrs.length + B.addrs.length + 1 := by simp [BTree.addrs]
            omega
          have hplug : plug (.node A U B) ((BTree.node l w r').above ((BTree.node l w r').search v)) = .node l w r' := by
            rw [← hw]; exact plug_above _ _ (by rw [hw]; simp)
          have hd := pm_treapDown m1 (A.forget.inorder.length + B.forget.inorder.length) (s.next + 1) Z1
            (by rw [hplug]; exact hsT) (by rw [addrs_length, addrs_length])
            (by rw [← addrs_length, ← addrs_length]; exact hn)
          have go : ∀ X, ((pTreapDown m1 (s.next + 1)
                (ctxPtr ((BTree.node l w r').above ((BTree.node l w r').search v))) (some U.2.2) >>= fun x => do
              if ← pIsLeftChild x.2 then pSetLeft (plainClass P) x.1 none else pSetRight (plainClass P) x.1 none
              pAddLength (-1)) >>= fun _ => (Pure.pure .unit : PM N P (BstVal N))) { s with warned := false } = X →
              pRemoveNum (pTreapRemove m1) (.num v) { s with warned := false } = X := by
            rintro X rfl
            refine (start rfl).trans ?_
            rw [if_neg hcond]
            have : pTreapRemove m1 v { s with warned := false } = (pTreapDown m1 (s.next + 1)
                (ctxPtr ((BTree.node l w r').above ((BTree.node l w r').search v))) (some U.2.2) >>= fun x => do
              if ← pIsLeftChild x.2 then pSetLeft (plainClass P) x.1 none else pSetRight (plainClass P) x.1 none
              pAddLength (-1)) { s with warned := false } := by
              refine (pm_bind_ok (pm_fuel _)).trans <| (pm_bind_ok e0).trans <| (pm_bind_ok hsearch).trans <|
                (pm_bind_ok (pm_data Z1.rep.1)).trans ?_
              rw [if_neg (by simpa using hU)]
              exact (pm_bind_ok (pm_parent Z1.rep.1)).trans <| (pm_bind_ok (pm_fuel _)).trans rfl
            rw [pm_bind, pm_bind, this]
          cases hv : treapDown m1 (U.1, U.2.1) (A.forget.inorder.length + B.forget.inorder.length) A.forget B.forget with
          | error e =>
            rw [hv] at hd
            obtain ⟨s', T', d1, d2, d3, d4, d5, d6⟩ := hd
            rw [q4 e hv]
            refine ⟨fun r t' e' => by simp [Except.bind] at e', fun e' he' => ?_⟩
            simp only [Except.bind, Except.error.injEq] at he'
            subst he'
            refine ⟨⟨T'.forget, t.length⟩, gives_error (go _ (pm_bind_err (pm_bind_err d1))) ⟨T', d2, rfl, ?_⟩, ?_, rfl⟩
            · rw [d4]; exact h2
            · rw [hplug] at d3
              rw [ht', inorder_forget, inorder_forget, d3]
          | ok x =>
            obtain ⟨t0, c0⟩ := x
            rw [hv] at hd
            obtain ⟨s', fs', d1, d2, d3, d4, d5, d6, d7, d8⟩ := hd
            obtain ⟨c', k1, -⟩ := q3 t0 c0 hv
            rw [k1]
            refine ⟨fun r t' e' => ?_, fun e' he' => by cases he'⟩
            cases e'
            obtain ⟨f, gs, rfl⟩ : ∃ f gs, fs' = f :: gs := by
              cases fs' with
              | nil =>
                refine absurd rfl (d5 ?_)
                by_contra hc
                simp only [not_or, not_not] at hc
                obtain ⟨rfl, rfl, hc⟩ := hc
                rw [hc] at hplug
                exact hlf (by rw [← hplug]; rfl)
              | cons f gs => exact ⟨f, gs, rfl⟩
            have hside : decide (f.w.1 > U.1) = f.left := by simpa [sidesOk, sideOk] using d4
            obtain ⟨nd', g1, g2⟩ := pm_setChild (C := plainClass P) d2.drop
            have hrf : relinkFrame (plainClass P) f .nil = f := rfl
            rw [hrf] at g2
            refine gives_ok (s' := { (s'.put nd') with length := s'.length - 1 }) (go _ ?_) ?_
              ⟨plug .nil (f :: gs), (g2.plug).congr rfl rfl rfl, ?_, ?_⟩
            · refine (pm_bind_ok (a := ()) ?_).trans rfl
              refine (pm_bind_ok d1).trans <| (pm_bind_ok (pm_isLeftChild d2.rep.1 rfl d2.ctx.1)).trans ?_
              simp only [hside]
              have g1' := g1
              cases hfl : f.left with
              | true =>
                rw [hfl, if_pos rfl] at g1'
                exact (pm_bind_ok g1').trans rfl
              | false =>
                rw [hfl, if_neg (by simp)] at g1'
                exact (pm_bind_ok g1').trans rfl
            · exact d7
            · rw [forget_plug]
              rw [show (BTree.nil : ATree N P).forget = .nil from rfl, d3, forgetAll_above, ht', forget_search]
            · rw [← h2, d6]
        · have hdv : t.root.dataAt (t.root.search v) ≠ some v := by
            rw [ht', forget_search]
            intro hc
            have := (mapExt_dataAt (Prod.fst : P × Addr → P) _ _).symm.trans hc
            rw [hdata] at this
            exact hU (Option.some.inj this)
          rw [q1 hdv]
          refine ⟨fun r t' e' => ?_, fun e' he' => by cases he'⟩
          cases e'
          exact missing hcond hU

/-- one call -/
theorem treap_exec (m1 : P) (h : PtrHolds s t) (hs : t.root.keys.Pairwise (· < ·)) (op : TreapOp N P) :
    (∀ r t', treapExec m1 t op = .ok (r, t') →
      (pTreapExec m1 s op).1 = r ∧ PtrHolds (pTreapExec m1 s op).2 t') ∧
    ∀ e, treapExec m1 t op = .error e → ∃ t', (pTreapExec m1 s op).1 = .error e ∧
      PtrHolds (pTreapExec m1 s op).2 t' ∧ t'.root.inorder = t.root.inorder ∧ t'.length = t.length := by
  have fin : ∀ {m : PM N P (BstVal N)} {r : BstRes N} {t' : Bst N P}, Gives m s r t' →
      (pCall m s).1 = r ∧ PtrHolds (pCall m s).2 t' := by
    rintro m r t' ⟨s', e, H⟩
    rw [e]; exact ⟨rfl, H⟩
  cases op with
  | insert v p =>
    refine ⟨fun r t' e => fin (treap_insert m1 h v p e), fun e he => ?_⟩
    exfalso
    simp only [treapExec, treapInsertNum] at he
    cases hv : validNum v with
    | error y => rw [hv] at he; cases he
    | ok v =>
      rw [hv] at he
      cases hp : p.value with
      | error y => rw [hp] at he; cases he
      | ok p =>
        rw [hp] at he
        simp only at he
        cases ht : t.root with
        | nil => rw [ht] at he; cases he
        | node l w r =>
          rw [ht] at he
          obtain ⟨t', on, e, -⟩ := treapInsert_ok (v, p) (.node l w r)
          simp only [e, bind, Except.bind, pure, Except.pure] at he
          cases he
  | remove v =>
    obtain ⟨h1, h2⟩ := treap_remove m1 h hs v
    refine ⟨fun r t' e => fin (h1 r t' e), fun e he => ?_⟩
    obtain ⟨t', k1, k2⟩ := h2 e he
    exact ⟨t', (fin k1).1, (fin k1).2, k2⟩
  | contains v => exact ⟨fun r t' e => by cases e; exact fin (gives_contains h v), fun e he => by cases he⟩
  | getMin => exact ⟨fun r t' e => by cases e; exact fin (gives_getMin h), fun e he => by cases he⟩
  | getMax => exact ⟨fun r t' e => by cases e; exact fin (gives_getMax h), fun e he => by cases he⟩
  | len => exact ⟨fun r t' e => by cases e; exact fin (gives_len h), fun e he => by cases he⟩
  | inorder => exact ⟨fun r t' e => by cases e; exact fin (gives_inorder h), fun e he => by cases he⟩
  | clear => exact ⟨fun r t' e => by cases e; exact fin gives_clear, fun e he => by cases he⟩

end

end Extra
