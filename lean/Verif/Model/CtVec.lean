import Verif.Model.CtRng
import Mathlib.Data.Option.Basic
import Mathlib.Data.Int.Order.Basic

/-! # Compile-time vectors (ct/ct_vec*.hpp)

A vector is a type in the code; here it is a tree of values. `none` stands for an instantiation that does not
compile (an incomplete type or a failed static assertion). -/

namespace Thls.Ct

/-- `ct_vec_empty`, `ct_vec_leaf<T>`, `ct_vec_branch<L,R>`. ct_vec.hpp:22-39. -/
inductive Vec (α : Type) where
  | empty
  | leaf (v : α)
  | branch (l r : Vec α)
deriving DecidableEq, Repr

namespace Vec

variable {α β : Type}

/-- `N`. ct_vec.hpp:24,30,36. -/
def size : Vec α → ℕ
  | empty => 0
  | leaf _ => 1
  | branch l r => l.size + r.size

/-- The elements in order (reading only; not a function of the code). -/
def toList : Vec α → List α
  | empty => []
  | leaf v => [v]
  | branch l r => l.toList ++ r.toList

/-- No empty subtree: the vectors on which the templates compile (not a function of the code). -/
def Full : Vec α → Prop
  | empty => False
  | leaf _ => True
  | branch l r => l.Full ∧ r.Full

/-- `ct_vec_read<I,T>::type`. Both subtrees are instantiated, and a leaf ignores the index. ct_vec.hpp:42-64. -/
def read (i : ℤ) : Vec α → Option α
  | empty => none
  | leaf v => some v
  | branch l r => (read i l).bind fun a => (read (i - l.size) r).map fun b => if i < l.size then a else b

/-- `ct_vec_write<I,W,T>::type`. ct_vec.hpp:67-89. -/
def write (i : ℤ) (w : α) : Vec α → Option (Vec α)
  | empty => none
  | leaf _ => some (leaf w)
  | branch l r => (write i w l).bind fun a => (write (i - l.size) w r).map fun b =>
      branch (if i < l.size then a else l) (if i < l.size then r else b)

/-- `ct_vec_swap<I0,I1,T>::type`. ct_vec.hpp:95-104. -/
def swap (i0 i1 : ℤ) (t : Vec α) : Option (Vec α) :=
  (read i0 t).bind fun v0 => (read i1 t).bind fun v1 => (write i1 v0 t).bind fun t' => write i0 v1 t'

/-- `create_ct_vec<N,V>::type`. ct_vec_create.hpp:11-33. -/
def create (n : ℕ) (v : α) : Vec α :=
  if n = 0 then empty
  else if n = 1 then leaf v
  else branch (create (n / 2) v) (create (n - n / 2) v)
termination_by n

/-- `create_ct_vec_rotation_impl<O,LocN,ModN>::type`; `none` for the endless recursion at `LocN = 0`. The elements are
nonnegative `int` constants. ct_vec_create.hpp:43-56. -/
def rotationImpl (o loc mod : ℕ) : Option (Vec ℕ) :=
  if loc = 0 then none
  else if loc = 1 then some (leaf (o % mod))
  else (rotationImpl o (loc / 2) mod).bind fun l =>
    (rotationImpl (o + loc / 2) (loc - loc / 2) mod).map fun r => branch l r
termination_by loc

/-- `create_ct_vec_rotation<O,N>::type`. ct_vec_create.hpp:58-62. -/
def rotation (o n : ℕ) : Option (Vec ℕ) := rotationImpl o n n

/-- `ct_vec_for_each_impl<V,F,off>::go`, as the list of calls of the functor. ct_vec_algorithms.hpp:14-40. -/
def forEach (off : ℕ) : Vec α → Option (List (ℕ × α))
  | empty => none
  | leaf v => some [(off, v)]
  | branch l r => (forEach off l).bind fun a => (forEach (off + l.size) r).map fun b => a ++ b

/-- `ct_vec_map_reduce_impl<V,MapRed,off>::go`; the map may fail to compile. ct_vec_algorithms.hpp:46-84. -/
def mapReduce (map : ℕ → α → Option β) (reduce : β → β → β) (off : ℕ) : Vec α → Option β
  | empty => none
  | leaf v => map off v
  | branch l r => (mapReduce map reduce off l).bind fun a =>
      (mapReduce map reduce (off + l.size) r).map fun b => reduce a b

/-- `ct_vec_permute_impl<J,Rng,Vec>::type, rng`, for any generator. ct_vec_permute.hpp:23-46. -/
def permuteImpl {ρ : Type} (value : ρ → ℕ) (next : ρ → ρ) : ℕ → ρ → Vec α → Option (Vec α × ρ)
  | 0, _, _ => none
  | 1, rng, vec => some (vec, rng)
  | j + 2, rng, vec =>
    let r := value rng / 2 ^ 16
    if j + 2 - 1 < vec.size ∧ r % (j + 2) < vec.size then
      (swap ((j + 2 - 1 : ℕ) : ℤ) ((r % (j + 2) : ℕ) : ℤ) vec).bind fun vec' =>
        permuteImpl value next (j + 1) (next rng) vec'
    else none

/-- `ct_vec_permute<Rng,Vec>`. ct_vec_permute.hpp:48-57. -/
def permute {ρ : Type} (value : ρ → ℕ) (next : ρ → ρ) (rng : ρ) (vec : Vec α) : Option (Vec α × ρ) :=
  permuteImpl value next vec.size rng vec

end Vec

/-! ## Unique elements -/

/-- An integer constant or one of the types `ct_vec_sentinel_lower`, `ct_vec_sentinel_upper`.
ct_vec_unique.hpp:17-18. -/
inductive Bound where
  | lower
  | val (x : ℤ)
  | upper
deriving DecidableEq, Repr

/-- `ct_vec_compare<X,Y>::value`; `none` where two partial specialisations match. ct_vec_unique.hpp:20-58. -/
def compare : Bound → Bound → Option ℤ
  | .val a, .val b => some (if a < b then -1 else if a > b then 1 else 0)
  | .upper, .upper => some 0
  | .lower, .lower => none
  | .lower, .upper => none
  | .upper, .lower => none
  | .val _, .upper => some (-1)
  | .upper, .val _ => some 1
  | .val _, .lower => some 1
  | .lower, .val _ => some (-1)

/-- `ct_vec_next_above<V,T>::type`. ct_vec_unique.hpp:62-87. -/
def nextAbove (v : Bound) : Vec Bound → Option Bound
  | .empty => none
  | .leaf x => (compare v x).map fun c => if c < 0 then x else .upper
  | .branch l r => (nextAbove v l).bind fun vl => (nextAbove v r).bind fun vr =>
      (compare vl vr).map fun c => if c < 0 then vl else vr

/-- `ct_vec_reduce_unique_impl<Prev,Vec>::N` and `build<I,Acc>`: the chain of `curr` types, to a depth of `fuel`
(`none` when it is exhausted, an endless template recursion). The chain is the list of the `curr`s, with the
final `ct_vec_sentinel_upper` included. ct_vec_unique.hpp:89-115. -/
def uniqueChain (vec : Vec Bound) : ℕ → Bound → Option (List Bound)
  | _, .upper => some []
  | 0, _ => none
  | fuel + 1, prev => (nextAbove prev vec).bind fun curr => (uniqueChain vec fuel curr).map fun next => curr :: next

/-- `N`: the elements of the chain before the sentinel. ct_vec_unique.hpp:95,109. -/
def uniqueN : List Bound → ℕ
  | [] => 0
  | curr :: next => if curr = .upper then 0 else 1 + uniqueN next

/-- `build<I,Acc>::type`: the later elements are written first; the sentinel is written as well, at the index
after the last. ct_vec_unique.hpp:97-104,111-114. -/
def uniqueBuild : List Bound → ℕ → Vec Bound → Option (Vec Bound)
  | [], _, acc => some acc
  | curr :: next, i, acc => (uniqueBuild next (i + 1) acc).bind fun acc' => Vec.write i curr acc'

/-- `ct_vec_unique<Vec>::type`. The depth of the recursion is cut off at one more than the number of elements,
which `Proofs` shows is never reached. ct_vec_unique.hpp:118-129. -/
def unique (vec : Vec Bound) : Option (Vec Bound) :=
  (uniqueChain vec (vec.size + 1) .lower).bind fun chain =>
    uniqueBuild chain 0 (Vec.create (uniqueN chain) (.val 0))

end Thls.Ct
