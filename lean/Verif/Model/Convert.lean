import Verif.Model.Flopoco

/-! # Promotion, conversion, negation and comparison (fp_promote.hpp, fp_convert.hpp,
fp_flopoco_neg_v1.hpp, fp_flopoco_ordering.hpp) -/

namespace Thls

/-- `promote_exp_impl<DstE,SrcE>::go`; the specialisation for equal widths returns its argument. Template
integers are exact here; in C++ the shifts need exponent widths below 32. fp_promote.hpp:12-33. -/
def promoteExp (dE sE e : ℕ) : ℕ :=
  if dE = sE then e else addW dE (concat sE 0 e) (biasN dE - biasN sE)

/-- `promote_frac_impl<DstF,SrcF>::go`. fp_promote.hpp:35-50. -/
def promoteFrac (dF sF f : ℕ) : ℕ := concat (dF - sF) f 0

/-- `promote(fp_flopoco<DstE,DstF>&, const fp_flopoco<SrcE,SrcF>&)` for `DstE >= SrcE` and `DstF >= SrcF`
(a static assertion otherwise). For equal formats the code returns the source itself, which is the same as
re-packing its fields (`C06_pack_of_fields`). fp_promote.hpp:55-65,123-124,149-155. -/
def promote (dE dF : ℕ) {sE sF : ℕ} (x : Fp sE sF) : Fp dE dF :=
  Fp.mk4 dE dF x.flags x.sign (promoteExp dE sE x.exp) (promoteFrac dF sF x.frac)

/-- `convert_frac<cmp,FR,FX>::go`: the new fraction and whether rounding wrapped it to zero.
fp_convert.hpp:56-132. -/
def convertFrac (FR FX f : ℕ) : ℕ × Bool :=
  if FR > FX then (concat (FR - FX) f 0, false)
  else if FR = FX then (f, false)
  else
    let keep := getBits (FX - 1) (FX - FR) f
    let drop := getBits (FX - FR - 1) 0 f
    let HALF := concat (FX - FR - 1) 1 0
    let isDropOverHalf := decide (drop > HALF)
    let isDropHalf := decide (drop = HALF)
    let isKeepOdd := getBit 0 keep
    let roundUp := isDropOverHalf || (isDropHalf && isKeepOdd)
    (addW FR keep roundUp.toNat, roundUp && decide (keep = ones FR))

/-- Flags and exponent field of the converted number, from the source flags, the source exponent and the
fraction carry. fp_convert.hpp:148-181. -/
def convertExp (ER EX flags xExp : ℕ) (wrap : Bool) : ℕ × ℕ :=
  if ER > EX then
    let ADJ := 2 ^ (ER - 1) - 2 ^ (EX - 1)
    (flags, addW ER (addW ER xExp ADJ) wrap.toNat)
  else if ER = EX then
    let rFlags := if wrap && decide (xExp = ones ER) then 0b10 else flags
    (rFlags, addW ER xExp wrap.toNat)
  else
    let ADJ := 2 ^ (EX - 1) - 2 ^ (ER - 1)
    let MIN_EXP := ADJ
    let MAX_EXP := ADJ + 2 ^ ER - 1
    let aExp := addW EX xExp wrap.toNat
    let expWrapped := decide (aExp = 0) && wrap
    let underflow := !expWrapped && decide (aExp < MIN_EXP)
    let overflow := expWrapped || decide (aExp > MAX_EXP)
    let tExp := getBits (ER - 1) 0 (subW EX aExp ADJ)
    let rFlags := if flags = 0b01 then (if underflow then 0b00 else if overflow then 0b10 else flags) else flags
    (rFlags, tExp)

/-- `convert(fp_flopoco<ER,FR>&, const fp_flopoco<EX,FX>&)`. fp_convert.hpp:134-191. -/
def convert (ER FR : ℕ) {EX FX : ℕ} (x : Fp EX FX) : Fp ER FR :=
  let fr := convertFrac FR FX x.frac
  let fe := convertExp ER EX x.flags x.exp fr.2
  Fp.mk4 ER FR fe.1 x.sign fe.2 fr.1

/-- The sign flip of `neg_v1` before its conversion. fp_flopoco_neg_v1.hpp:13-18. -/
def flipSign {E F : ℕ} (x : Fp E F) : Fp E F := Fp.mk4 E F x.flags (notW 1 x.sign) x.exp x.frac

/-- `neg_v1<wER,wFR>(x)`. fp_flopoco_neg_v1.hpp:10-20. -/
def negV1 (ER FR : ℕ) {EX FX : ℕ} (x : Fp EX FX) : Fp ER FR := convert ER FR (flipSign x)

namespace Ord

/-- `equal` after promotion. fp_flopoco_ordering.hpp:22-33. -/
def equalN {E F : ℕ} (na nb : Fp E F) : Bool :=
  if na.isNan || nb.isNan then false
  else if na.flags != nb.flags then false
  else if na.isZero then true
  else na.sign == nb.sign && na.expFrac == nb.expFrac

/-- `not_equal` after promotion. fp_flopoco_ordering.hpp:44-55. -/
def notEqualN {E F : ℕ} (na nb : Fp E F) : Bool :=
  if na.isNan || nb.isNan then true
  else if na.flags != nb.flags then true
  else if na.isZero then false
  else na.sign != nb.sign || na.expFrac != nb.expFrac

/-- `less_than` after promotion. fp_flopoco_ordering.hpp:73-86. -/
def ltN {E F : ℕ} (na nb : Fp E F) : Bool :=
  if na.isNan || nb.isNan then false
  else if na.isZero && nb.isZero then false
  else if na.isNegative ^^ nb.isNegative then na.isNegative
  else if na.isNegative then decide (na.flagsExpFrac > nb.flagsExpFrac)
  else decide (na.flagsExpFrac < nb.flagsExpFrac)

/-- `less_than_equal` after promotion. fp_flopoco_ordering.hpp:102-115. -/
def leN {E F : ℕ} (na nb : Fp E F) : Bool :=
  if na.isNan || nb.isNan then false
  else if na.isZero && nb.isZero then true
  else if na.isNegative ^^ nb.isNegative then na.isNegative
  else if na.isNegative then decide (na.flagsExpFrac ≥ nb.flagsExpFrac)
  else decide (na.flagsExpFrac ≤ nb.flagsExpFrac)

/-- `greater_than` after promotion. fp_flopoco_ordering.hpp:128-141. -/
def gtN {E F : ℕ} (na nb : Fp E F) : Bool :=
  if na.isNan || nb.isNan then false
  else if na.isZero && nb.isZero then false
  else if na.isNegative ^^ nb.isNegative then na.isPositive
  else if na.isNegative then decide (na.flagsExpFrac < nb.flagsExpFrac)
  else decide (na.flagsExpFrac > nb.flagsExpFrac)

/-- `greater_than_equal` after promotion. fp_flopoco_ordering.hpp:154-167. -/
def geN {E F : ℕ} (na nb : Fp E F) : Bool :=
  if na.isNan || nb.isNan then false
  else if na.isZero && nb.isZero then true
  else if na.isNegative ^^ nb.isNegative then na.isPositive
  else if na.isNegative then decide (na.flagsExpFrac ≤ nb.flagsExpFrac)
  else decide (na.flagsExpFrac ≥ nb.flagsExpFrac)

/-- `equal(a,b)`. fp_flopoco_ordering.hpp:13-34. -/
def equal {EA FA EB FB : ℕ} (a : Fp EA FA) (b : Fp EB FB) : Bool :=
  equalN (promote (max EA EB) (max FA FB) a) (promote (max EA EB) (max FA FB) b)
/-- `not_equal(a,b)`. fp_flopoco_ordering.hpp:36-56. -/
def notEqual {EA FA EB FB : ℕ} (a : Fp EA FA) (b : Fp EB FB) : Bool :=
  notEqualN (promote (max EA EB) (max FA FB) a) (promote (max EA EB) (max FA FB) b)
/-- `less_than(a,b)`. fp_flopoco_ordering.hpp:63-87. -/
def lessThan {EA FA EB FB : ℕ} (a : Fp EA FA) (b : Fp EB FB) : Bool :=
  ltN (promote (max EA EB) (max FA FB) a) (promote (max EA EB) (max FA FB) b)
/-- `less_than_equal(a,b)`. fp_flopoco_ordering.hpp:92-116. -/
def lessThanEqual {EA FA EB FB : ℕ} (a : Fp EA FA) (b : Fp EB FB) : Bool :=
  leN (promote (max EA EB) (max FA FB) a) (promote (max EA EB) (max FA FB) b)
/-- `greater_than(a,b)`. fp_flopoco_ordering.hpp:118-142. -/
def greaterThan {EA FA EB FB : ℕ} (a : Fp EA FA) (b : Fp EB FB) : Bool :=
  gtN (promote (max EA EB) (max FA FB) a) (promote (max EA EB) (max FA FB) b)
/-- `greater_than_equal(a,b)`. fp_flopoco_ordering.hpp:144-168. -/
def greaterThanEqual {EA FA EB FB : ℕ} (a : Fp EA FA) (b : Fp EB FB) : Bool :=
  geN (promote (max EA EB) (max FA FB) a) (promote (max EA EB) (max FA FB) b)

end Ord
end Thls
