import Verif.Model.CtVec
import Verif.Model.Bits

/-! # LUT-optimised uniform generators (lut_opt.hpp) -/

namespace Thls.Ct.LutOpt

/-- `ct_vec_permute<Rng,Vec>` with the generator of the specification, `skip_by<Rng,1>` of
`lcg_mod_2y32_state`. lut_opt.hpp:60,115,121. -/
def permute (rng : ℕ) (vec : Vec ℕ) : Option (Vec ℕ × ℕ) :=
  Vec.permute id (fun s => lcgSkip s lcgA lcgC 1) rng vec

/-- `lut_opt_spec_make_perms<Trem,Rng,Vec>`: the permuted vectors, each made from the previous, and the final
generator. lut_opt.hpp:55-87. -/
def makePerms : ℕ → ℕ → Vec ℕ → Option (List (Vec ℕ) × ℕ)
  | 0, rng, _ => some ([], rng)
  | t + 1, rng, vec => (permute rng vec).bind fun permed =>
      (makePerms t permed.2 permed.1).map fun next => (permed.1 :: next.1, next.2)

/-- `get_source<D,I>::value`; `none` past the last permutation. lut_opt.hpp:67-81. -/
def getSource (perms : List (Vec ℕ)) (d : ℕ) (i : ℤ) : Option ℕ := perms[d]?.bind fun sources => Vec.read i sources

/-- `lut_opt_spec_get_src_vec<I,O,Perms,Acc>::type`. lut_opt.hpp:90-104. -/
def getSrcVec (i : ℤ) (perms : List (Vec ℕ)) : ℕ → Vec Bound → Option (Vec Bound)
  | 0, acc => some acc
  | o + 1, acc => (getSource perms o i).bind fun nv =>
      (Vec.write (o : ℤ) (.val nv) acc).bind fun acc' => getSrcVec i perms o acc'

/-- The types of `lut_opt_spec<N,T,S>`: the permutations of the sources and the output permutation.
lut_opt.hpp:107-121. -/
def perms (n t s : ℕ) : Option (List (Vec ℕ) × Vec ℕ) :=
  (Vec.rotation 1 n).bind fun cycle =>
    (makePerms t (quickAndDirty s) cycle).bind fun p =>
      (permute p.2 cycle).map fun out => (p.1, out.1)

/-- `make_bit::map<off,Val>`: a bit of the state; `none` where `get_bit` does not compile. lut_opt.hpp:147-151. -/
def makeBit (n state : ℕ) : Bound → Option ℕ
  | .val x => if 0 ≤ x ∧ x < n then some (getBits x.toNat x.toNat state) else none
  | _ => none

/-- `cat_bit::map<off,Val>`: the exclusive or of the distinct sources of one bit. lut_opt.hpp:143-145,173-182. -/
def catBit (n t state : ℕ) (perms : List (Vec ℕ)) (val : ℕ) : Option ℕ :=
  (getSrcVec val perms t (Vec.create t (.val 0))).bind fun rawSrcs =>
    (unique rawSrcs).bind fun srcs =>
      Vec.mapReduce (fun _ v => makeBit n state v) (fun a b => a ^^^ b) 0 srcs

/-- `cat_bit::reduce`: concatenation, on pairs of a width and a value. lut_opt.hpp:163-166,184-189. -/
def catReduce (a b : ℕ × ℕ) : ℕ × ℕ := (a.1 + b.1, concat b.1 a.2 b.2)

/-- `lut_opt_spec<N,T,S>::step(s)`. lut_opt.hpp:199-204. -/
def step (n t s state : ℕ) : Option ℕ :=
  (perms n t s).bind fun p =>
    (Vec.mapReduce (fun _ v => (catBit n t state p.1 v).map fun b => (1, b)) catReduce 0 p.2).map fun r => r.2

end Thls.Ct.LutOpt
