import Verif.Trees.TrieSpec

/-!
# Specification of `RadixTrie`

The abstract state is the list of the words held and the list of the strings that end at a node.
The second list is only needed for strings with a `}` and for `len`.
-/

namespace Extra

/-- the words held, and the strings that end at a node -/
structure RadixState where
  words : List Word
  nodes : List Word
  deriving DecidableEq, Repr

/-- some node starts with `p` -/
def readable (N : List Word) (p : Word) : Bool := N.any (fun q => p.isPrefixOf q)

/-- reading `w` fails at its `i`-th character: a node ends before it, and the character is a `}` that
cannot be read -/
def strayAt (N : List Word) (w : Word) (i : Nat) : Bool :=
  decide (w[i]? = some '}') && decide (w.take i ∈ N) && !readable N (w.take (i + 1))

/-- reading `w` meets an unexpected `}` at a node -/
def strayIn (N : List Word) (w : Word) : Bool := (List.range w.length).any (strayAt N w)

/-- … as the last character of `w` -/
def strayLast (N : List Word) (w : Word) : Bool :=
  (List.range w.length).any (fun i => strayAt N w i && decide (i + 1 = w.length))

/-- the longest prefix of `w`, of at most `k` characters, that can be read -/
def longestRead (N : List Word) (w : Word) : Nat → Word
  | 0 => []
  | k + 1 => if readable N (w.take (k + 1)) then w.take (k + 1) else longestRead N w k

/-- add to a list without duplicates -/
def addNew (S : List Word) (w : Word) : List Word := if w ∈ S then S else S ++ [w]

/-- what each call should do on a `RadixTrie` -/
def radSpec (s : RadixState) : TrOp → Except Err TrRes × RadixState
  | .insert .none => (.error .valueError, s)
  | .insert .other => (.error .typeError, s)
  | .insert (.str w) =>
    if blank w then (.error .valueError, s)
    else if strayIn s.nodes w then (.error .attributeError, s)
    else (.ok .unit,
      ⟨addNew s.words w, addNew (addNew s.nodes (longestRead s.nodes w w.length)) w⟩)
  | .remove .none => (.ok .warned, s)
  | .remove .other => (.ok .warned, s)
  | .remove (.str w) =>
    if strayIn s.nodes w then (.error .attributeError, s)
    else (if s.words = [w] then .error .attributeError else .ok .unit,
      ⟨s.words.erase w, s.nodes.filter (reaches (s.words.erase w))⟩)
  | .contains .none => (.ok (.bool false), s)
  | .contains .other => (.ok (.bool false), s)
  | .contains (.str w) =>
    (if strayIn s.nodes w then .error .attributeError else .ok (.bool (decide (w ∈ s.words))), s)
  | .hasPrefix .none => (.ok (.bool false), s)
  | .hasPrefix .other => (.ok (.bool false), s)
  | .hasPrefix (.str w) =>
    (if strayLast s.nodes w then .ok (.bool true)
     else if strayIn s.nodes w then .error .attributeError
     else .ok (.bool (reaches s.words w)), s)
  | .len => (.ok (.int s.nodes.length), s)
  | .isEmpty => (.ok (.bool (decide (s.words = []))), s)
  | .clear => (.ok .unit, ⟨[], [[]]⟩)

/-- a history of calls -/
def radSpecs : List TrOp → RadixState → List (Except Err TrRes) × RadixState
  | [], s => ([], s)
  | op :: ops, s =>
    match radSpec s op with
    | (r, s') => match radSpecs ops s' with
      | (rs, s'') => (r :: rs, s'')

end Extra
