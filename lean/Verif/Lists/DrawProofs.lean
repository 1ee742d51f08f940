import Verif.Lists.Draw
import Verif.Lists.Reach
import Verif.Trees.DrawTreeProofs
import Verif.Trees.DrawBinProofs
import Verif.Lists.QueueRefine

/-! # Helper lemmas for the drawings of the linked lists -/

set_option linter.unusedSectionVars false

namespace Extra

/-! ## The specification -/

/-- a row of pieces `l ++ f c ++ r`, one for each text -/
def pieces (l r : List Char) (f : List Char → List Char) (cells : List (List Char)) : List Char :=
  cells.flatMap (fun c => l ++ f c ++ r)

/-- the line above or below a text and a blank on each side of it -/
def rule (c : List Char) : List Char := List.replicate (c.length + 2) '─'

/-- a text and a blank on each side of it -/
def padded (c : List Char) : List Char := ' ' :: c ++ [' ']

/-- the number of columns of the boxes and arrows of some texts -/
def boxesWidth (cells : List (List Char)) : Nat := (cells.map (fun c => c.length + 5)).sum

/-- the lines that show a list whose items print as the texts -/
def listText (k : Kind) (cells : List (List Char)) : List (List Char) :=
  match cells with
  | [] => [['┌', '─'], ['│'], ['└', '─']]
  | c :: _ =>
    match k with
    | .ll => [pieces ['┌'] ['┐', ' '] rule cells, pieces ['│'] ['│', '⟶'] padded cells,
        pieces ['└'] ['┘', ' '] rule cells]
    | .dll => [pieces [' ', '┌'] ['┐'] rule cells ++ [' '],
        pieces ['⟷', '│'] ['│'] padded cells ++ ['⟷'], pieces [' ', '└'] ['┘'] rule cells ++ [' ']]
    | .cll =>
      let m := (c.length + 4) / 2
      [pieces ['┌'] ['┐', ' '] rule cells, pieces ['│'] ['│', '⟶'] padded cells ++ [' ', '┐'],
        pieces ['└'] ['┘', ' '] rule cells ++ [' ', '│'],
        List.replicate m ' ' ++ '↑' :: List.replicate (boxesWidth cells - m) ' ' ++ ['│'],
        List.replicate m ' ' ++ '└' :: List.replicate (boxesWidth cells - m) '─' ++ ['┘']]

/-! ## The lines -/

theorem pieces_cons (l r : List Char) (f : List Char → List Char) (c : List Char)
    (cs : List (List Char)) : pieces l r f (c :: cs) = l ++ f c ++ r ++ pieces l r f cs := by
  simp [pieces]

theorem pieces_append (l r : List Char) (f : List Char → List Char) (cs ds : List (List Char)) :
    pieces l r f (cs ++ ds) = pieces l r f cs ++ pieces l r f ds := by
  simp [pieces]

@[simp] theorem length_rule (c : List Char) : (rule c).length = c.length + 2 := by simp [rule]
@[simp] theorem length_padded (c : List Char) : (padded c).length = c.length + 2 := by simp [padded]

theorem length_pieces {l r : List Char} {f : List Char → List Char}
    (hf : ∀ c, (f c).length = c.length + 2) (hw : l.length + r.length = 3) (cs : List (List Char)) :
    (pieces l r f cs).length = boxesWidth cs := by
  induction cs with
  | nil => rfl
  | cons c cs ih =>
    rw [pieces_cons]
    simp only [List.length_append, ih, hf, boxesWidth, List.map_cons, List.sum_cons]
    omega

section
variable {V X : Type} [PyData V] [PyShow V] [Inhabited X] {h : Heap V X} {l : Addr}
  {ns : List Addr} {xs : List V}

theorem times_nat (c : Char) (n : Nat) : times c ((n : Int) + 2) = List.replicate (n + 2) c := by
  rw [times]; congr 1

theorem printLoop_single {k : Kind} (hk : k ≠ .dll) {e : Option Addr} : ∀ (bs : List Addr)
    {zs : List V} (t m d : List Char) {curr : Option Addr}, Src h bs zs e →
    (bs ≠ [] → curr = bs.head?) →
    printLoop k bs.length curr (t, m, d) h = (.ok (
      t ++ pieces ['┌'] ['┐', ' '] rule (zs.map PyShow.str),
      m ++ pieces ['│'] ['│', '⟶'] padded (zs.map PyShow.str),
      d ++ pieces ['└'] ['┘', ' '] rule (zs.map PyShow.str)), h)
  | [], zs, t, m, d, curr, s, _ => by
    have : zs = [] := List.eq_nil_of_length_eq_zero s.length_eq.symm
    subst this
    simp [printLoop, pieces]
  | b :: bs, zs, t, m, d, curr, s, hc => by
    obtain ⟨z, zs, rfl⟩ := s.cons_inv
    have hc := hc (by simp)
    simp only [List.head?_cons] at hc
    subst hc
    obtain ⟨hd, nx, _, s'⟩ := s.uncons
    have ih := fun t m d => printLoop_single hk bs t m d (curr := (h.node b).next) s'
      (by intro hne; rw [nx]; cases bs <;> simp_all)
    cases k with
    | dll => exact absurd rfl hk
    | ll =>
      simp only [List.length_cons, printLoop, printNode, run_bind, run_nodeAt, run_getNext, run_pure,
        ih, List.map_cons, pieces_cons, hd, showData, times_nat, rule, padded]
      simp
    | cll =>
      simp only [List.length_cons, printLoop, printNode, run_bind, run_nodeAt, run_getNext, run_pure,
        ih, List.map_cons, pieces_cons, hd, showData, times_nat, rule, padded]
      simp

theorem printLoop_double : ∀ (bs : List Addr) {zs : List V} (t m d : List Char)
    {curr : Option Addr}, Src h bs zs none → bs ≠ [] → curr = bs.head? →
    printLoop .dll bs.length curr (t, m, d) h = (.ok (
      t ++ pieces [' ', '┌'] ['┐'] rule (zs.map PyShow.str) ++ [' '],
      m ++ pieces ['⟷', '│'] ['│'] padded (zs.map PyShow.str) ++ ['⟷'],
      d ++ pieces [' ', '└'] ['┘'] rule (zs.map PyShow.str) ++ [' ']), h)
  | [], _, _, _, _, _, _, hne, _ => absurd rfl hne
  | b :: bs, zs, t, m, d, curr, s, _, hc => by
    obtain ⟨z, zs, rfl⟩ := s.cons_inv
    simp only [List.head?_cons] at hc
    subst hc
    obtain ⟨hd, nx, _, s'⟩ := s.uncons
    cases bs with
    | nil =>
      have : zs = [] := List.eq_nil_of_length_eq_zero s'.length_eq.symm
      subst this
      simp only [List.head?_nil, Option.none_or] at nx
      simp only [List.length_cons, List.length_nil, printLoop, printNode, run_bind, run_deref_some,
        run_nodeAt, nx, Option.isNone_none, if_true, run_getNext, run_pure,
        List.map_cons, pieces_cons, hd, showData, times_nat, rule, padded]
      simp [pieces]
    | cons b' bs =>
      have ih := fun t m d => printLoop_double (b' :: bs) t m d (curr := (h.node b).next) s'
        (by simp) (by rw [nx]; simp)
      simp only [List.head?_cons, Option.some_or] at nx
      rw [nx] at ih
      rw [List.length_cons]
      generalize (b' :: bs).length = n at ih
      simp only [printLoop, printNode, run_bind, run_deref_some,
        run_nodeAt, nx, Option.isNone_some, Bool.false_eq_true, if_false, run_getNext, run_pure,
        ih, List.map_cons, pieces_cons, hd, showData, times_nat, rule, padded]
      simp

theorem llRepr_spec {k : Kind} (r : Rep k h l ns xs) :
    llRepr k l h = (.ok (listText k (xs.map PyShow.str)), h) := by
  cases ns with
  | nil =>
    have : xs = [] := List.eq_nil_of_length_eq_zero r.length_eq.symm
    subst this
    have h0 : (h.lobj l).length = 0 := r.len
    simp [llRepr, run_bind, h0, listText]
  | cons b bs =>
    have hl := r.len
    have hh := r.head (by simp)
    have hn : ¬ (h.lobj l).length = 0 := by rw [hl]; simp
    have hs : Src h (b :: bs) xs (endOf k (b :: bs)) := r.src
    obtain ⟨x, xs, rfl⟩ := hs.cons_inv
    have hd := hs.uncons.1
    cases k with
    | ll =>
      have e := printLoop_single (k := .ll) (by simp) (b :: bs) [] [] [] hs (fun _ => hh)
      rw [← hl] at e
      simp only [llRepr, run_bind, run_getList, hn, if_false, printList, hh, List.head?_cons,
        Option.isNone_some, Bool.false_eq_true, run_pure, listText, List.map_cons] at e ⊢
      rw [e]
      simp
    | dll =>
      have e := printLoop_double (b :: bs) [] [] [] hs (by simp) hh
      rw [← hl] at e
      simp only [llRepr, run_bind, run_getList, hn, if_false, printList, hh, List.head?_cons,
        Option.isNone_some, Bool.false_eq_true, run_pure, listText, List.map_cons] at e ⊢
      rw [e]
      simp
    | cll =>
      have e := printLoop_single (k := .cll) (by simp) (b :: bs) [] [] [] hs (fun _ => hh)
      rw [← hl] at e
      simp only [llRepr, run_bind, run_getList, hn, if_false, printList, hh, List.head?_cons,
        Option.isNone_some, Bool.false_eq_true, run_pure, listText, List.map_cons] at e ⊢
      rw [e]
      have hw := length_pieces (l := ['│']) (r := ['│', '⟶']) length_padded (by simp)
        (PyShow.str x :: xs.map PyShow.str)
      have h1 : times ' ' (((((PyShow.str x).length + 4) / 2 : Nat) : Int)) =
          List.replicate (((PyShow.str x).length + 4) / 2) ' ' := by
        rw [times, Int.toNat_natCast]
      have h2 : ∀ c, times c ((boxesWidth (PyShow.str x :: xs.map PyShow.str) : Int) -
          (((PyShow.str x).length + 4) / 2 : Nat)) =
          List.replicate (boxesWidth (PyShow.str x :: xs.map PyShow.str) -
            ((PyShow.str x).length + 4) / 2) c := by
        intro c; rw [times]; congr 1; omega
      simp only [run_getData, hd, showData, List.nil_append, List.length_append, hw,
        List.length_cons, List.length_nil]
      push_cast
      push_cast at h1 h2
      simp [h1, h2]

theorem World.repr_spec [PyOrd V] {k : Kind} {w : World V X} {s : AState V} {i : Nat}
    (R : Reach k w s) (hi : s.at? i = some xs) :
    w.repr k i = (.ok (joinLines (listText k (xs.map PyShow.str))), w.heap) := by
  obtain ⟨nsf, I⟩ := R.inv
  have hlt : i < w.env.length := by rw [I.len]; exact at?_lt hi
  have he : w.env[i]? = some w.env[i] := List.getElem?_eq_getElem hlt
  have r := I.rep i xs _ hi he
  simp [World.repr, World.addr, he, run_bind, llRepr_spec r]

end

/-! ## The columns -/

/-- columns of a row of pieces -/
theorem pieces_getElem? {l r : List Char} {f : List Char → List Char}
    (hf : ∀ c, (f c).length = c.length + 2) (hw : l.length + r.length = 3)
    (as : List (List Char)) (c : List Char) (bs : List (List Char)) (rest : List Char) {j : Nat}
    (hj : j < c.length + 5) :
    (pieces l r f (as ++ c :: bs) ++ rest)[boxesWidth as + j]? = (l ++ f c ++ r)[j]? := by
  have h1 := length_pieces hf hw as
  have h2 := length_pieces hf hw [c]
  rw [pieces_append, pieces_cons, List.append_assoc, List.getElem?_append_right (by omega), h1,
    Nat.add_sub_cancel_left, List.append_assoc, List.getElem?_append_left]
  simp only [List.length_append, hf]
  omega

/-- the character in a line and column of a drawing, if there is one -/
def cell (lines : List (List Char)) (r c : Nat) : Option Char := lines[r]?.bind (·[c]?)

/-- the column of the left border of the box of item `j`: each item before it takes the columns of its
text, five more for the borders, blanks and the arrow; a `DoublyLinkedList` starts with an arrow -/
def boxCol (k : Kind) (txts : List (List Char)) (j : Nat) : Nat :=
  ((txts.take j).map (fun c => c.length + 5)).sum + (if k = .dll then 1 else 0)

/-- the number of columns behind the boxes and arrows, in line `r`: the last arrow of a
`DoublyLinkedList`, the way back in a `CircularLinkedList` -/
def endCols : Kind → Nat → Nat
  | .ll, _ => 0
  | .dll, _ => 1
  | .cll, r => if r = 0 then 0 else 2

/-- the box of the text `txt` has its left border in column `a`, and the arrow is behind it -/
structure BoxAt (k : Kind) (lines : List (List Char)) (a : Nat) (txt : List Char) : Prop where
  top : cell lines 0 a = some '┌' ∧ (∀ c, c < txt.length + 2 → cell lines 0 (a + 1 + c) = some '─') ∧
    cell lines 0 (a + txt.length + 3) = some '┐'
  text : cell lines 1 a = some '│' ∧ cell lines 1 (a + 1) = some ' ' ∧
    (∀ c, c < txt.length → cell lines 1 (a + 2 + c) = txt[c]?) ∧
    cell lines 1 (a + txt.length + 2) = some ' ' ∧ cell lines 1 (a + txt.length + 3) = some '│'
  low : cell lines 2 a = some '└' ∧ (∀ c, c < txt.length + 2 → cell lines 2 (a + 1 + c) = some '─') ∧
    cell lines 2 (a + txt.length + 3) = some '┘'
  arrow : cell lines 1 (a + txt.length + 4) = some (if k = .dll then '⟷' else '⟶')

theorem listText_rows (k : Kind) {cs : List (List Char)} (h : cs ≠ []) :
    ∃ e0 e1 e2 rest,
      listText k cs =
        (pieces ((if k = .dll then [' '] else []) ++ ['┌']) ('┐' :: if k = .dll then [] else [' '])
          rule cs ++ e0) ::
        (pieces ((if k = .dll then ['⟷'] else []) ++ ['│']) ('│' :: if k = .dll then [] else ['⟶'])
          padded cs ++ e1) ::
        (pieces ((if k = .dll then [' '] else []) ++ ['└']) ('┘' :: if k = .dll then [] else [' '])
          rule cs ++ e2) :: rest ∧ (k = .dll → e1 = ['⟷']) := by
  cases cs with
  | nil => exact absurd rfl h
  | cons c cs =>
    cases k with
    | ll => exact ⟨[], [], [], [], by simp [listText], by simp⟩
    | dll => exact ⟨[' '], ['⟷'], [' '], [], by simp [listText], by simp⟩
    | cll => exact ⟨[], [' ', '┐'], [' ', '│'], _, by simp only [listText]; simp; rfl, by simp⟩

theorem listText_box (k : Kind) (as : List (List Char)) (c : List Char)
    (bs : List (List Char)) :
    BoxAt k (listText k (as ++ c :: bs)) (boxesWidth as + (if k = .dll then 1 else 0)) c := by
  obtain ⟨e0, e1, e2, rest, e, he⟩ := listText_rows k (cs := as ++ c :: bs) (by simp)
  rw [e]
  by_cases hk : k = .dll
  · subst hk
    have he := he rfl
    subst he
    simp only [if_true]
    have t0 := fun n (hn : n < c.length + 5) => pieces_getElem? (l := [' ', '┌']) (r := ['┐'])
      length_rule (by simp) as c bs e0 hn
    have t1 := fun n (hn : n < c.length + 5) => pieces_getElem? (l := ['⟷', '│']) (r := ['│'])
      length_padded (by simp) as c bs ['⟷'] hn
    have t2 := fun n (hn : n < c.length + 5) => pieces_getElem? (l := [' ', '└']) (r := ['┘'])
      length_rule (by simp) as c bs e2 hn
    refine ⟨⟨?_, fun n hn => ?_, ?_⟩, ⟨?_, ?_, fun n hn => ?_, ?_, ?_⟩, ⟨?_, fun n hn => ?_, ?_⟩, ?_⟩
    · simpa [cell] using t0 1 (by omega)
    · have := t0 (n + 2) (by omega)
      rw [show boxesWidth as + 1 + 1 + n = boxesWidth as + (n + 2) by omega]
      simp [cell, this, rule, List.getElem?_append_left, hn]
    · have := t0 (c.length + 4) (by omega)
      rw [show boxesWidth as + 1 + c.length + 3 = boxesWidth as + (c.length + 4) by omega]
      simp [cell, this, rule]
    · simpa [cell] using t1 1 (by omega)
    · simpa [cell, padded] using t1 2 (by omega)
    · have := t1 (n + 3) (by omega)
      rw [show boxesWidth as + 1 + 2 + n = boxesWidth as + (n + 3) by omega]
      simp [cell, this, padded, List.getElem?_append_left, hn]
    · have := t1 (c.length + 3) (by omega)
      rw [show boxesWidth as + 1 + c.length + 2 = boxesWidth as + (c.length + 3) by omega]
      simp [cell, this, padded]
    · have := t1 (c.length + 4) (by omega)
      rw [show boxesWidth as + 1 + c.length + 3 = boxesWidth as + (c.length + 4) by omega]
      simp [cell, this, padded]
    · simpa [cell] using t2 1 (by omega)
    · have := t2 (n + 2) (by omega)
      rw [show boxesWidth as + 1 + 1 + n = boxesWidth as + (n + 2) by omega]
      simp [cell, this, rule, List.getElem?_append_left, hn]
    · have := t2 (c.length + 4) (by omega)
      rw [show boxesWidth as + 1 + c.length + 3 = boxesWidth as + (c.length + 4) by omega]
      simp [cell, this, rule]
    · have hw : (pieces ['⟷', '│'] ['│'] padded (as ++ [c])).length = boxesWidth as + (c.length + 5) := by
        rw [length_pieces length_padded (by simp)]; simp [boxesWidth]
      have : pieces ['⟷', '│'] ['│'] padded (as ++ c :: bs) =
          pieces ['⟷', '│'] ['│'] padded (as ++ [c]) ++ pieces ['⟷', '│'] ['│'] padded bs := by
        rw [← pieces_append]; simp
      rw [show boxesWidth as + 1 + c.length + 4 = boxesWidth as + (c.length + 5) by omega, ← hw]
      simp only [cell, List.getElem?_cons_succ, List.getElem?_cons_zero, Option.bind_some,
        List.cons_append, List.nil_append, this, List.append_assoc]
      rw [List.getElem?_append_right (Nat.le_refl _), Nat.sub_self]
      cases bs <;> simp [pieces]
  · simp only [hk, if_false, List.nil_append, Nat.add_zero]
    have t0 := fun n (hn : n < c.length + 5) => pieces_getElem? (l := ['┌']) (r := ['┐', ' '])
      length_rule (by simp) as c bs e0 hn
    have t1 := fun n (hn : n < c.length + 5) => pieces_getElem? (l := ['│']) (r := ['│', '⟶'])
      length_padded (by simp) as c bs e1 hn
    have t2 := fun n (hn : n < c.length + 5) => pieces_getElem? (l := ['└']) (r := ['┘', ' '])
      length_rule (by simp) as c bs e2 hn
    refine ⟨⟨?_, fun n hn => ?_, ?_⟩, ⟨?_, ?_, fun n hn => ?_, ?_, ?_⟩, ⟨?_, fun n hn => ?_, ?_⟩, ?_⟩
    · simpa [cell] using t0 0 (by omega)
    · have := t0 (n + 1) (by omega)
      rw [show boxesWidth as + 1 + n = boxesWidth as + (n + 1) by omega]
      simp [cell, this, rule, List.getElem?_append_left, hn]
    · have := t0 (c.length + 3) (by omega)
      rw [show boxesWidth as + c.length + 3 = boxesWidth as + (c.length + 3) by omega]
      simp [cell, this, rule]
    · simpa [cell] using t1 0 (by omega)
    · simpa [cell, padded] using t1 1 (by omega)
    · have := t1 (n + 2) (by omega)
      rw [show boxesWidth as + 2 + n = boxesWidth as + (n + 2) by omega]
      simp [cell, this, padded, List.getElem?_append_left, hn]
    · have := t1 (c.length + 2) (by omega)
      rw [show boxesWidth as + c.length + 2 = boxesWidth as + (c.length + 2) by omega]
      simp [cell, this, padded]
    · have := t1 (c.length + 3) (by omega)
      rw [show boxesWidth as + c.length + 3 = boxesWidth as + (c.length + 3) by omega]
      simp [cell, this, padded]
    · simpa [cell] using t2 0 (by omega)
    · have := t2 (n + 1) (by omega)
      rw [show boxesWidth as + 1 + n = boxesWidth as + (n + 1) by omega]
      simp [cell, this, rule, List.getElem?_append_left, hn]
    · have := t2 (c.length + 3) (by omega)
      rw [show boxesWidth as + c.length + 3 = boxesWidth as + (c.length + 3) by omega]
      simp [cell, this, rule]
    · have := t1 (c.length + 4) (by omega)
      rw [show boxesWidth as + c.length + 4 = boxesWidth as + (c.length + 4) by omega]
      simp [cell, this, padded, hk]

theorem listText_boxAt (k : Kind) {txts : List (List Char)} {j : Nat} {c : List Char}
    (h : txts[j]? = some c) : BoxAt k (listText k txts) (boxCol k txts j) c := by
  have h1 : txts = txts.take j ++ c :: txts.drop (j + 1) := by
    obtain ⟨hj, e⟩ := List.getElem?_eq_some_iff.1 h
    rw [← e, List.cons_getElem_drop_succ, List.take_append_drop]
  have := listText_box k (txts.take j) c (txts.drop (j + 1))
  rw [← h1] at this
  exact this

theorem listText_length (k : Kind) {txts : List (List Char)} (h : txts ≠ []) :
    (listText k txts).length = if k = .cll then 5 else 3 := by
  cases txts with
  | nil => exact absurd rfl h
  | cons c cs => cases k <;> rfl

theorem two_le_boxesWidth (c : List Char) (cs : List (List Char)) :
    (c.length + 4) / 2 ≤ boxesWidth (c :: cs) := by
  simp only [boxesWidth, List.map_cons, List.sum_cons]; omega

theorem listText_width (k : Kind) {txts : List (List Char)} (h : txts ≠ []) {r : Nat} {l : List Char}
    (hr : (listText k txts)[r]? = some l) :
    l.length = (txts.map (fun c => c.length + 5)).sum +
      endCols k r := by
  cases txts with
  | nil => exact absurd rfl h
  | cons c cs =>
    have hm := two_le_boxesWidth c cs
    have p1 := fun a b e => @length_pieces a b rule length_rule e (c :: cs)
    have p2 := fun a b e => @length_pieces a b padded length_padded e (c :: cs)
    change l.length = boxesWidth (c :: cs) + _
    cases k <;> simp only [listText] at hr
    · rcases r with _ | _ | _ | r <;> simp at hr <;> subst hr <;> simp [p1, p2, endCols]
    · rcases r with _ | _ | _ | r <;> simp at hr <;> subst hr <;> simp [p1, p2, endCols]
    · rcases r with _ | _ | _ | _ | _ | r <;> simp at hr <;> subst hr <;> simp [p1, p2, endCols] <;> omega

/-! ## What the text determines -/

theorem replicate_append_inj {x y : Char} (hxy : x ≠ y) : ∀ {m n : Nat} {a b : List Char},
    List.replicate m x ++ y :: a = List.replicate n x ++ y :: b → m = n ∧ a = b
  | 0, 0, _, _, h => by simpa using h
  | 0, n + 1, _, _, h => by
    simp only [List.replicate_zero, List.nil_append, List.replicate_succ, List.cons_append,
      List.cons.injEq] at h
    exact absurd h.1.symm hxy
  | m + 1, 0, _, _, h => by
    simp only [List.replicate_zero, List.nil_append, List.replicate_succ, List.cons_append,
      List.cons.injEq] at h
    exact absurd h.1 hxy
  | m + 1, n + 1, a, b, h => by
    simp only [List.replicate_succ, List.cons_append, List.cons.injEq, true_and] at h
    obtain ⟨e, e'⟩ := replicate_append_inj hxy h
    exact ⟨by omega, e'⟩

/-- the line above the boxes and the line through the texts determine the texts -/
theorem pieces_inj {l r l' r' e e' : List Char} : ∀ {cs ds : List (List Char)},
    pieces (l ++ ['┌']) ('┐' :: r) rule cs ++ e = pieces (l ++ ['┌']) ('┐' :: r) rule ds ++ e →
    pieces (l' ++ ['│']) ('│' :: r') padded cs ++ e' = pieces (l' ++ ['│']) ('│' :: r') padded ds ++ e' →
    cs = ds
  | [], [], _, _ => rfl
  | [], d :: ds, h, _ => by
    have := congrArg List.length h
    simp [pieces] at this
    omega
  | c :: cs, [], h, _ => by
    have := congrArg List.length h
    simp [pieces] at this
    omega
  | c :: cs, d :: ds, h, h' => by
    simp only [pieces_cons, rule, List.append_assoc, List.append_cancel_left_eq, List.cons_append,
      List.nil_append, List.cons.injEq, true_and] at h
    obtain ⟨h1, h2⟩ := replicate_append_inj (by decide) h
    simp only [pieces_cons, padded, List.append_assoc, List.append_cancel_left_eq, List.cons_append,
      List.nil_append, List.cons.injEq, true_and] at h'
    obtain ⟨h3, h4⟩ := List.append_inj h' (by omega)
    simp only [List.cons.injEq, true_and, List.append_cancel_left_eq] at h2 h4
    rw [h3, pieces_inj h2 h4]

theorem listText_inj {k : Kind} {cs ds : List (List Char)} (h : listText k cs = listText k ds) :
    cs = ds := by
  cases cs with
  | nil =>
    cases ds with
    | nil => rfl
    | cons d ds => cases k <;> simp [listText, pieces_cons, rule, padded] at h
  | cons c cs =>
    cases ds with
    | nil => cases k <;> simp [listText, pieces_cons, rule, padded] at h
    | cons d ds =>
      cases k with
      | ll =>
        simp only [listText, List.cons.injEq, and_true] at h
        exact pieces_inj (l := []) (l' := []) (e := []) (e' := []) (r := [' ']) (r' := ['⟶'])
          (by simpa using h.1) (by simpa using h.2.1)
      | dll =>
        simp only [listText, List.cons.injEq, and_true] at h
        exact pieces_inj (l := [' ']) (l' := ['⟷']) (e := [' ']) (e' := ['⟷']) (r := []) (r' := [])
          h.1 h.2.1
      | cll =>
        simp only [listText, List.cons.injEq, and_true] at h
        exact pieces_inj (l := []) (l' := []) (e := []) (e' := [' ', '┐']) (r := [' ']) (r' := ['⟶'])
          (by simpa using h.1) h.2.1

theorem pieces_nl {l r : List Char} {f : List Char → List Char} (hl : '\n' ∉ l) (hr : '\n' ∉ r)
    {cs : List (List Char)} (hc : ∀ c ∈ cs, '\n' ∉ f c) : '\n' ∉ pieces l r f cs := by
  intro hm
  obtain ⟨c, h1, h2⟩ := List.mem_flatMap.1 hm
  simp only [List.mem_append] at h2
  rcases h2 with (h2 | h2) | h2
  · exact hl h2
  · exact hc c h1 h2
  · exact hr h2

theorem rule_nl (c : List Char) : '\n' ∉ rule c := by
  intro h
  have := List.eq_of_mem_replicate h
  exact absurd this (by decide)

theorem padded_nl {c : List Char} (h : '\n' ∉ c) : '\n' ∉ padded c := by
  simp [padded, h]

theorem listText_nl (k : Kind) {cs : List (List Char)} (hc : ∀ c ∈ cs, '\n' ∉ c) :
    ∀ l ∈ listText k cs, '\n' ∉ l := by
  have p1 : ∀ l r, '\n' ∉ l → '\n' ∉ r → '\n' ∉ pieces l r rule cs :=
    fun l r h1 h2 => pieces_nl h1 h2 (fun c _ => rule_nl c)
  have p2 : ∀ l r, '\n' ∉ l → '\n' ∉ r → '\n' ∉ pieces l r padded cs :=
    fun l r h1 h2 => pieces_nl h1 h2 (fun c h => padded_nl (hc c h))
  cases cs with
  | nil => simp [listText]
  | cons c cs => cases k <;> simp [listText, p1, p2]

theorem listText_ne (k : Kind) (cs : List (List Char)) : listText k cs ≠ [] := by
  cases cs <;> cases k <;> simp [listText]

theorem digits_nl (n : Nat) : '\n' ∉ Nat.toDigits 10 n := by
  intro h
  have := Nat.isDigit_of_mem_toDigits (by decide) (by decide) h
  exact absurd this (by decide)

/-- a stored value prints without newlines -/
theorem Val.str_nl {v : Val} (h : PyData.norm v = v) : '\n' ∉ PyShow.str v := by
  cases v with
  | int n =>
    cases n with
    | ofNat n =>
      change '\n' ∉ (Nat.repr n).toList
      simpa using digits_nl n
    | negSucc n =>
      have := digits_nl (n + 1)
      simp [PyShow.str, toString, Int.repr, this]
  | str s =>
    have h : Val.norm (.str s) = .str s := h
    simp only [Val.norm, Val.str.injEq] at h
    have := newline_not_mem_escape s
    rw [h] at this
    exact this
  | obj n =>
    have := digits_nl n
    simp [PyShow.str, this]

theorem shown_nl {k : Kind} {w : World Val Unit} {s : AState Val} {i : Nat} {xs : List Val}
    (R : Reach k w s) (hi : s.at? i = some xs) : ∀ c ∈ xs.map PyShow.str, '\n' ∉ c := by
  obtain ⟨nsf, I⟩ := R.inv
  have hlt : i < w.env.length := by rw [I.len]; exact at?_lt hi
  have r := I.rep i xs _ hi (List.getElem?_eq_getElem hlt)
  intro c hc
  obtain ⟨x, hx, rfl⟩ := List.mem_map.1 hc
  exact Val.str_nl (r.normed x hx)

theorem listText_back (c : List Char) (cs : List (List Char)) :
    let lines := listText .cll (c :: cs)
    let e := boxesWidth (c :: cs) + 1
    let m := (c.length + 4) / 2
    cell lines 3 m = some '↑' ∧ cell lines 4 m = some '└' ∧
      (∀ n, m < n → n < e → cell lines 3 n = some ' ' ∧ cell lines 4 n = some '─') ∧
      cell lines 4 e = some '┘' ∧ cell lines 3 e = some '│' ∧ cell lines 2 e = some '│' ∧
      cell lines 1 e = some '┐' := by
  have hm := two_le_boxesWidth c cs
  have q1 := length_pieces (l := ['│']) (r := ['│', '⟶']) length_padded rfl (c :: cs)
  have q2 := length_pieces (l := ['└']) (r := ['┘', ' ']) length_rule rfl (c :: cs)
  simp only [listText, cell, List.getElem?_cons_succ, List.getElem?_cons_zero, Option.bind_some]
  generalize boxesWidth (c :: cs) = W at *
  generalize (c.length + 4) / 2 = m at *
  have key : ∀ (a b d : Char) (n : Nat), m < n → (List.replicate m ' ' ++ a :: List.replicate (W - m) b ++ [d])[n]? =
      (List.replicate (W - m) b ++ [d])[n - m - 1]? := by
    intro a b d n hn
    rw [List.append_assoc, List.getElem?_append_right (by simp; omega), List.length_replicate,
      List.cons_append, List.getElem?_cons, if_neg (by omega)]
  refine ⟨by simp, by simp, fun n h1 h2 => ⟨?_, ?_⟩, ?_, ?_, ?_, ?_⟩
  · rw [key _ _ _ _ h1, List.getElem?_append_left (by simp; omega), List.getElem?_replicate, if_pos (by omega)]
  · rw [key _ _ _ _ h1, List.getElem?_append_left (by simp; omega), List.getElem?_replicate, if_pos (by omega)]
  · rw [key _ _ _ _ (by omega), List.getElem?_append_right (by simp; omega), List.length_replicate,
      show W + 1 - m - 1 - (W - m) = 0 by omega]
    rfl
  · rw [key _ _ _ _ (by omega), List.getElem?_append_right (by simp; omega), List.length_replicate,
      show W + 1 - m - 1 - (W - m) = 0 by omega]
    rfl
  · rw [List.getElem?_append_right (by omega), q2]; simp
  · rw [List.getElem?_append_right (by omega), q1]; simp

end Extra
