import Verif.Lists.QueueSpec

/-!
# Which histories of a priority queue go wrong (specification)

`remember low` collects the entries the cached extreme priority of one direction stands for: those added
since the last `clear()`, or since the last `dequeue` in that direction, and those held then.  An entry
that was evicted, or dequeued in the other direction, is still among them.  Nothing here mentions the
model.
-/

namespace Extra
variable {V P : Type} [PyData V] [PyShow V] [LinearOrder P]

/-- `p` comes out before `q` -/
def before (low : Bool) (p q : P) : Prop := if low then p < q else q < p

/-- the entries remembered for direction `low` after a call on a queue that holds `xs` -/
def remember (cap : Option Nat) (op : PQOp V P) (xs : List (V × P)) (low : Bool)
    (ps : List (V × P)) : List (V × P) :=
  match op with
  | .enqueue item prio =>
    match storeItem item, givenPrio prio with
    | .ok v, .ok p => (v, p) :: ps
    | _, _ => ps
  | .dequeue l => if l = low ∧ xs ≠ [] then (prioStep cap op xs).2 else ps
  | .clear => []
  | _ => ps

/-- `dequeue` looks for a priority that is remembered, but not held any more -/
def lost (low : Bool) (xs ps : List (V × P)) : Prop :=
  ∃ p ∈ ps, ∀ x ∈ xs, before low p.2 x.2

/-- the most recently added of three or more items is taken, and the one before it has another
priority -/
def mixesUp (low : Bool) : List (V × P) → Prop
  | x :: b :: c :: zs => best low (x :: b :: c :: zs) x = true ∧ b.2 ≠ x.2
  | _ => False

/-- no call of the history meets a queue where `dequeue` goes wrong; `lo` and `hi` are the entries
remembered for the two directions -/
def faultless (cap : Option Nat) : List (PQOp V P) → List (V × P) → List (V × P) → List (V × P) → Prop
  | [], _, _, _ => True
  | op :: ops, xs, lo, hi =>
    (∀ low, op = .dequeue low → xs ≠ [] →
      ¬ lost low xs (if low then lo else hi) ∧ ¬ mixesUp low xs) ∧
    faultless cap ops (prioStep cap op xs).2 (remember cap op xs true lo) (remember cap op xs false hi)

/-- the items held after a history, and the entries remembered for the two directions -/
def recall (cap : Option Nat) : List (PQOp V P) → List (V × P) → List (V × P) → List (V × P) →
    List (V × P) × List (V × P) × List (V × P)
  | [], xs, lo, hi => (xs, lo, hi)
  | op :: ops, xs, lo, hi =>
    recall cap ops (prioStep cap op xs).2 (remember cap op xs true lo) (remember cap op xs false hi)

end Extra
